import Verif.Lemmas.Trace
import Verif.Props.AllRefs
import Verif.Props.Trace
import Verif.Spec.Guess

/-!
# The guesser, exactly

C66 – C70.
-/

namespace Rezip

open Spec

/-! ### C67 -/

/-- C67. The hash of three bytes is gzip's. -/
theorem C67_hash (k : Key) : k.hash16 = gzipHash k.b0 k.b1 k.b2 := by
  obtain ⟨a, b, c⟩ := k
  have ha := a.toNat_lt
  unfold Key.hash16 gzipHash
  simp only [UInt16.toNat_and, UInt16.toNat_xor, UInt16.toNat_shiftLeft, UInt8.toNat_toUInt16,
    UInt16.toNat_ofNat]
  rw [show (32767 % 2 ^ 16 : Nat) = 2 ^ 15 - 1 from rfl, Nat.and_two_pow_sub_one_eq_mod,
    show (5 % 2 ^ 16 % 16 : Nat) = 5 from rfl, show (0 % 2 ^ 16 : Nat) = 0 from rfl, Nat.zero_xor,
    Nat.shiftLeft_eq a.toNat, Nat.mod_eq_of_lt (show a.toNat * 2 ^ 5 < 2 ^ 16 by omega),
    Nat.shiftLeft_xor_distrib, Nat.shiftLeft_eq, Nat.shiftLeft_eq, Nat.xor_mod_two_pow,
    Nat.mod_mod_of_dvd _ (show 2 ^ 15 ∣ 2 ^ 16 from ⟨2, rfl⟩), ← Nat.xor_mod_two_pow, Nat.mul_assoc]

theorem hash_digits (a b c : UInt8) :
    gzipHash a b c % 32 = c.toNat % 32 ∧
    gzipHash a b c / 32 % 32 = (b.toNat % 32) ^^^ (c.toNat / 32) ∧
    gzipHash a b c / 1024 = (a.toNat % 32) ^^^ (b.toNat / 32) := by
  have ha := a.toNat_lt
  have hb := b.toNat_lt
  have hc := c.toNat_lt
  unfold gzipHash
  have d5 : ∀ x : Nat, x / 32 = x / 2 ^ 5 := fun _ => rfl
  refine ⟨?_, ?_, ?_⟩
  · rw [show (32768 : Nat) = 32 * 1024 from rfl, Nat.mod_mul_right_mod,
      show (32 : Nat) = 2 ^ 5 from rfl, Nat.xor_mod_two_pow, Nat.xor_mod_two_pow]
    rw [show a.toNat * 1024 % 2 ^ 5 = 0 by omega, show b.toNat * 2 ^ 5 % 2 ^ 5 = 0 by omega]
    simp
  · rw [show ∀ n : Nat, n % 32768 / 32 % 32 = n / 2 ^ 5 % 2 ^ 5 by intro n; omega,
      Nat.xor_div_two_pow, Nat.xor_div_two_pow, Nat.xor_mod_two_pow, Nat.xor_mod_two_pow]
    rw [show a.toNat * 1024 / 2 ^ 5 % 2 ^ 5 = 0 by omega,
      show b.toNat * 32 / 2 ^ 5 % 2 ^ 5 = b.toNat % 32 by omega,
      show c.toNat / 2 ^ 5 % 2 ^ 5 = c.toNat / 32 by omega]
    simp
  · rw [show ∀ n : Nat, n % 32768 / 1024 = n / 2 ^ 10 % 2 ^ 5 by intro n; omega,
      Nat.xor_div_two_pow, Nat.xor_div_two_pow, Nat.xor_mod_two_pow, Nat.xor_mod_two_pow]
    rw [show a.toNat * 1024 / 2 ^ 10 % 2 ^ 5 = a.toNat % 32 by omega,
      show b.toNat * 32 / 2 ^ 10 % 2 ^ 5 = b.toNat / 32 by omega,
      show c.toNat / 2 ^ 10 % 2 ^ 5 = 0 by omega]
    simp

/-- C67. Exactly which triples collide: those that agree on three groups of five bits; the top three
bits of the first byte do not matter. -/
theorem C67_collide (k l : Key) :
    k.hash16 = l.hash16 ↔
      k.b2.toNat % 32 = l.b2.toNat % 32 ∧
      (k.b1.toNat % 32) ^^^ (k.b2.toNat / 32) = (l.b1.toNat % 32) ^^^ (l.b2.toNat / 32) ∧
      (k.b0.toNat % 32) ^^^ (k.b1.toNat / 32) = (l.b0.toNat % 32) ^^^ (l.b1.toNat / 32) := by
  rw [C67_hash, C67_hash]
  obtain ⟨h1, h2, h3⟩ := hash_digits k.b0 k.b1 k.b2
  obtain ⟨g1, g2, g3⟩ := hash_digits l.b0 l.b1 l.b2
  rw [← h1, ← h2, ← h3, ← g1, ← g2, ← g3]
  omega

/-- The collision is real: `a` and `A` differ in bit 5 only. -/
example : (Key.mk 97 98 99).hash16 = (Key.mk 65 98 99).hash16 ∧
    (Key.mk 97 98 99).hash16 ≠ (Key.mk 97 66 99).hash16 ∧ (Key.mk 97 98 99).hash16 = 2083 := by
  decide

/-- C67. Two triples with the same hash and the same last two bytes differ at most in the top three
bits of the first; so of the triples starting with letters of one case, none collide this way. -/
theorem C67_same_tail (a a' b c : UInt8) :
    (Key.mk a b c).hash16 = (Key.mk a' b c).hash16 ↔ a.toNat % 32 = a'.toNat % 32 := by
  rw [C67_collide]
  simp only [true_and]
  constructor
  · intro h
    have := congrArg (· ^^^ (b.toNat / 32)) h
    simpa [Nat.xor_assoc] using this
  · intro h
    rw [h]

/-! ### C68 -/

theorem Spec.commonPrefix_spec {x y : List UInt8} {i : Nat} (h : i < commonPrefix x y) :
    ∃ b, x[i]? = some b ∧ y[i]? = some b := by
  induction x generalizing y i with
  | nil => simp [commonPrefix] at h
  | cons a x ih =>
    cases y with
    | nil => simp [commonPrefix] at h
    | cons c y =>
      rw [commonPrefix] at h
      by_cases e : a = c
      · rw [if_pos e] at h
        subst e
        cases i with
        | zero => exact ⟨a, rfl, rfl⟩
        | succ i => simpa using ih (Nat.lt_of_succ_lt_succ h)
      · rw [if_neg e] at h; omega

theorem Spec.le_commonPrefix {x y : List UInt8} {n : Nat}
    (h : ∀ i, i < n → ∃ b, x[i]? = some b ∧ y[i]? = some b) : n ≤ commonPrefix x y := by
  induction n generalizing x y with
  | zero => omega
  | succ n ih =>
    obtain ⟨b, h1, h2⟩ := h 0 (by omega)
    cases x with
    | nil => simp at h1
    | cons a x =>
      cases y with
      | nil => simp at h2
      | cons c y =>
        have e : a = c := by
          have h1 : a = b := by simpa using h1
          have h2 : c = b := by simpa using h2
          rw [h1, h2]
        rw [commonPrefix, if_pos e]
        exact Nat.succ_le_succ (ih fun i hi => by simpa using h (i + 1) (by omega))

theorem AllRefs.IsMatch.commonPrefix_eq {w : List UInt8} {pos : Nat} {r : Ref}
    (h : AllRefs.IsMatch w pos r) :
    min 258 (commonPrefix (w.drop pos) (w.drop (pos - r.dist.toNat))) = r.run := by
  obtain ⟨_, _, h3, ⟨h4, h5⟩, h6⟩ := h
  have hr := r.run_le
  have lo : r.run ≤ commonPrefix (w.drop pos) (w.drop (pos - r.dist.toNat)) := by
    apply le_commonPrefix
    intro i hi
    have := h5 i hi
    rw [List.getElem?_drop, List.getElem?_drop]
    have hlt : pos + i < w.length := by omega
    refine ⟨w[pos + i], List.getElem?_eq_getElem hlt, ?_⟩
    rw [show pos - r.dist.toNat + i = pos + i - r.dist.toNat by omega, ← this]
    exact List.getElem?_eq_getElem hlt
  rcases h6 with h6 | h6
  · omega
  · have hi : ¬ r.run < commonPrefix (w.drop pos) (w.drop (pos - r.dist.toNat)) := by
      intro hlt
      obtain ⟨b, b1, b2⟩ := commonPrefix_spec hlt
      rw [List.getElem?_drop] at b1 b2
      rcases h6 with h6 | h6
      · rw [h6, List.getElem?_eq_none (Nat.le_refl _)] at b1
        cases b1
      · apply h6
        rw [b1, ← b2]
        congr 1
        omega
    omega

theorem Spec.three_eq (w : List UInt8) (j : Nat) :
    three w j = (threeAt w j).map fun k => (k.b0, k.b1, k.b2) := by
  unfold three threeAt
  have h0 : (w.drop j)[0]? = w[j]? := by rw [List.getElem?_drop]; rfl
  have h1 : (w.drop j)[1]? = w[j + 1]? := by rw [List.getElem?_drop]
  have h2 : (w.drop j)[2]? = w[j + 2]? := by rw [List.getElem?_drop]
  rw [← h0, ← h1, ← h2]
  generalize w.drop j = l
  match l with
  | [] => rfl
  | [_] => rfl
  | [_, _] => rfl
  | _ :: _ :: _ :: _ => rfl

theorem Spec.hidden_eq (runs : List (Nat × Nat)) (j : Nat) :
    hidden runs j = Obscured.contains runs j := by
  unfold hidden
  induction runs with
  | nil => rfl
  | cons p runs ih =>
    obtain ⟨s, l⟩ := p
    rw [List.any_cons, ih, Obscured.contains]
    by_cases h : (decide (j > s) && decide (j < s + l)) = true
    · rw [if_pos h]
      have : (decide (s < j) && decide (j < s + l)) = true := h
      rw [this]; rfl
    · rw [if_neg h]
      have : (decide (s < j) && decide (j < s + l)) = false := by simpa using h
      rw [this]; rfl

/-- C68. The candidate search, exactly: at a position with three bytes left the candidates are, with
distances and lengths and in order, those of the reference description; elsewhere there are none. -/
theorem C68_candidates (preroll data : List UInt8) (limit pos : Nat) (runs : List (Nat × Nat)) :
    ∃ a, AllRefs.withSixteen preroll data limit = .ok a ∧
      ((three (preroll ++ data) pos = none ∧ a.at_ pos runs = .ok none) ∨
       (three (preroll ++ data) pos ≠ none ∧ ∃ rs, a.at_ pos runs = .ok (some rs) ∧
          rs.map (fun r => (r.dist.toNat, r.run)) =
            candidates (preroll ++ data) limit pos runs)) := by
  obtain ⟨a, h1, rfl, rfl, rfl, h5⟩ := AllRefs.withSixteen_ok preroll data limit
  refine ⟨a, h1, ?_⟩
  have := AllRefs.at_ok h5 pos runs
  rw [show a.preroll ++ a.data = a.win from rfl, three_eq]
  cases hk : threeAt a.win pos with
  | none => rw [hk] at this; exact .inl ⟨rfl, this⟩
  | some k =>
    rw [hk] at this
    obtain ⟨rs, r1, r2, r3⟩ := this
    refine .inr ⟨by simp, rs, r1, ?_⟩
    have e : (searched a.win a.limit pos runs).filter
        (fun j => pos - j ≤ 32768 && three a.win j == three a.win pos) =
        rs.map (fun r => pos - r.dist.toNat) := by
      rw [r3]
      unfold searched latestFirst
      rw [← List.filter_reverse, List.filter_filter]
      congr 1
      · funext j
        congr 1
        rw [three_eq, three_eq, hk]
        cases hj : threeAt a.win j with
        | none => rfl
        | some l =>
          obtain ⟨l0, l1, l2⟩ := l
          obtain ⟨k0, k1, k2⟩ := k
          rw [Bool.eq_iff_iff]
          simp
      · congr 2
        funext j
        rw [← hidden_eq]
        have : sameHash a.win j pos = hashesTo a.win k.hash16 j := by
          unfold sameHash hashesTo
          rw [three_eq, three_eq, hk]
          cases hj : threeAt a.win j with
          | none => rfl
          | some l => simp only [Option.map_some, C67_hash]
        rw [this, Bool.and_comm]
    unfold candidates
    rw [e, List.map_map]
    refine List.map_congr_left fun r hr => ?_
    have hm := r2 r hr
    have hlt := hm.dist_lt
    show _ = (pos - (pos - r.dist.toNat), _)
    rw [show pos - (pos - r.dist.toNat) = r.dist.toNat by omega]
    congr 1
    exact hm.commonPrefix_eq.symm

/-! ### C66 -/

/-- C66. The presets are gzip's: for every level the numbers are those of gzip's table, levels 1 to 3
limit insertion and the others look ahead and drop far matches of length three. -/
theorem C66_presets (level good lazy_ nice chain : Nat) (h : 1 ≤ level)
    (hrow : gzipTable[level - 1]? = some (good, lazy_, nice, chain)) :
    ∃ config, Config.gzip level = .ok config ∧
      config.firstByteBug = true ∧ config.lookahead = .greedy ∧
      (config.picker = .dropFarThrees ↔ 4 ≤ level) ∧
      config.wams.quitSearchAboveLength = nice ∧ config.wams.limitCountOfDistances = chain ∧
      config.wams.insertOnlyBelowLength = (if level < 4 then some lazy_ else none) ∧
      config.wams.lookahead =
        (if level < 4 then none else some { apatheticAboveLength := good, abortAboveLength := lazy_ }) := by
  have hl : level - 1 < 9 := by
    apply Decidable.byContradiction
    intro hn
    rw [List.getElem?_eq_none (by show 9 ≤ _; omega)] at hrow
    cases hrow
  have : level = 1 ∨ level = 2 ∨ level = 3 ∨ level = 4 ∨ level = 5 ∨ level = 6 ∨ level = 7 ∨
    level = 8 ∨ level = 9 := by omega
  rcases this with rfl | rfl | rfl | rfl | rfl | rfl | rfl | rfl | rfl <;>
  · cases hrow
    exact ⟨_, rfl, by decide⟩

/-- C66. Other levels panic. -/
theorem C66_level_range (level : Nat) (h : ¬ (1 ≤ level ∧ level ≤ 9)) :
    Config.gzip level = .error (.panic .assertion) := by
  unfold Config.gzip
  rw [show assert (decide (level ≥ 1) && decide (level ≤ 9)) = .error (.panic .assertion) from by
    unfold assert
    rw [if_neg]
    simp only [Bool.and_eq_true, decide_eq_true_eq]
    exact h]
  rfl

/-- C66. The default is level 6; the other preset has the numbers of level 9. -/
theorem C66_default : Config.gzip16Default = Config.gzip 6 ∧
    ∃ c9, Config.gzip 9 = .ok c9 ∧
      Config.spicy = .ok ⟨false, .threeZip, .dropFarThrees, c9.wams⟩ := ⟨rfl, _, rfl, rfl⟩

/-! ### C69 -/

theorem Spec.choose_map (cap : Nat) (rs : List Ref) :
    (Picker.longest.pick rs cap).map (fun r => (r.dist.toNat, r.run)) =
      choose cap (rs.map fun r => (r.dist.toNat, r.run)) := by
  unfold choose
  rcases C51_pick_longest rs cap with ⟨rfl, h⟩ | ⟨r, l₁, l₂, h, rfl, h'⟩
  · rw [h]; rfl
  · rw [h, Option.map_some]
    rcases h' with ⟨h1, h2⟩ | ⟨h1, h2, h3⟩
    · have : ((l₁ ++ r :: l₂).map fun r => (r.dist.toNat, r.run)).find? (fun c => cap ≤ c.2) =
          some (r.dist.toNat, r.run) := by
        rw [List.find?_map, Option.map_eq_some_iff]
        refine ⟨r, ?_, rfl⟩
        rw [List.find?_eq_some_iff_append]
        refine ⟨by simpa using h1, l₁, l₂, rfl, fun x hx => ?_⟩
        have := h2 x hx
        simp; omega
      rw [this]
    · have : ((l₁ ++ r :: l₂).map fun r => (r.dist.toNat, r.run)).find? (fun c => cap ≤ c.2) =
          none := by
        rw [List.find?_map, Option.map_eq_none_iff, List.find?_eq_none]
        intro x hx
        have := h1 x hx
        simp; omega
      rw [this]
      dsimp only
      symm
      rw [List.find?_map, Option.map_eq_some_iff]
      refine ⟨r, ?_, rfl⟩
      rw [List.find?_eq_some_iff_append]
      refine ⟨?_, l₁, l₂, rfl, fun x hx => ?_⟩
      · simp only [Function.comp, List.all_eq_true, decide_eq_true_eq]
        intro p hp
        obtain ⟨x, hx, rfl⟩ := List.mem_map.1 hp
        rcases List.mem_append.1 hx with hx | hx
        · exact Nat.le_of_lt (h2 x hx)
        · rcases List.mem_cons.1 hx with rfl | hx
          · exact Nat.le_refl _
          · exact h3 x hx
      · have := h2 x hx
        simp only [Function.comp, Bool.not_eq_true', List.all_eq_false, decide_eq_true_eq]
        exact ⟨(r.dist.toNat, r.run), List.mem_map.2 ⟨r, by simp, rfl⟩, by simpa using this⟩

/-- The settings that a configuration amounts to. -/
def Config.settings (c : Config) : Settings :=
  { nice := c.wams.quitSearchAboveLength, chain := c.wams.limitCountOfDistances,
    dropFar := c.picker == .dropFarThrees, insert := c.wams.insertOnlyBelowLength }

theorem Spec.pick_map (p : Picker) (cap : Nat) (rs : List Ref) :
    (p.pick rs cap).map (fun r => (r.dist.toNat, r.run)) =
      (choose cap (rs.map fun r => (r.dist.toNat, r.run))).filter fun c =>
        !(p == .dropFarThrees) || decide (3 < c.2) || decide (c.1 ≤ 4096) := by
  rw [← choose_map]
  cases p with
  | longest =>
    rw [show (Picker.longest == Picker.dropFarThrees) = false from rfl]
    cases Picker.longest.pick rs cap <;> rfl
  | dropFarThrees =>
    show ((Picker.longest.pick rs cap).filter _).map _ = _
    rw [show (Picker.dropFarThrees == Picker.dropFarThrees) = true from rfl]
    cases Picker.longest.pick rs cap with
    | none => rfl
    | some r =>
      rw [Option.map_some, Option.filter_some, Option.filter_some]
      by_cases h : (decide (r.run > 3) || decide (r.dist.toNat ≤ 4096)) = true
      · rw [if_pos h, if_pos (by simpa using h)]; rfl
      · rw [if_neg h, if_neg (by simpa using h)]; rfl

/-- The best candidate without a match to beat, exactly. -/
theorem best_exact (config : Config) (preroll data : List UInt8) (search : Nat) (a : AllRefs)
    (ha : AllRefs.withSixteen preroll data search = .ok a) (s : Scanner) (pos : Nat) (b : UInt8)
    (hb : (preroll ++ data)[pos]? = some b) :
    ∃ ro, (Technique.mk config a).bestCandidateBetterThan s pos none = .ok (b, ro) ∧
      ro.map (fun r => (r.dist.toNat, r.run)) =
        guess config.settings search (preroll ++ data) pos s.obscured := by
  obtain ⟨a', h1, h2⟩ := C68_candidates preroll data search pos s.obscured
  obtain ⟨a'', h3, e1, e2, _⟩ := AllRefs.withSixteen_ok preroll data search
  rw [ha] at h1 h3; cases h1; cases h3
  have hp := lt_of_getElem? hb
  rw [Technique.bestCandidateBetterThan]
  have hget : a.get pos = .ok b := by
    have : pos < a.win.length := by unfold AllRefs.win; rw [e1, e2]; exact hp
    rw [AllRefs.get_ok this]
    congr 1
    rw [← e1, ← e2] at hb
    have := List.getElem?_eq_getElem this
    have hb : a.win[pos]? = some b := hb
    rw [hb] at this
    exact (Option.some.inj this).symm
  rw [hget, Ex.ok_bind]
  dsimp only
  rw [Technique.search]
  dsimp only
  rcases h2 with ⟨h2, h4⟩ | ⟨_, rs, h4, h5⟩
  · rw [h4]
    refine ⟨none, rfl, ?_⟩
    have : ∀ j, sameHash (preroll ++ data) j pos = false := by
      intro j; unfold sameHash; rw [h2]; cases three (preroll ++ data) j <;> rfl
    have e : candidates (preroll ++ data) search pos s.obscured = [] := by
      unfold candidates searched
      have e : (List.range pos).reverse.filter
          (fun j => 0 < j && sameHash (preroll ++ data) j pos && !hidden s.obscured j) = [] :=
        List.filter_eq_nil_iff.2 (by intro j _; simp [this])
      rw [e, List.take_nil]
      rfl
    unfold guess
    rw [e]
    simp [choose]
  · rw [h4]
    refine ⟨_, rfl, ?_⟩
    rw [pick_map]
    unfold guess
    rw [List.map_take, h5]
    rfl

/-- C69. The guess of a greedy configuration, exactly: one code, the match of the reference description or
the byte at the position. -/
theorem C69_greedy (config : Config) (hg : config.lookahead = .greedy) (preroll data : List UInt8)
    (search : Nat) (a : AllRefs) (ha : AllRefs.withSixteen preroll data search = .ok a) (s : Scanner)
    (hs : s.pos < (preroll ++ data).length) :
    ∃ c, (Technique.mk config a).codes s = .ok [c] ∧
      ∀ c', says (preroll ++ data) s.pos
        (guess config.settings search (preroll ++ data) s.pos s.obscured) c' = true ↔ c' = c := by
  obtain ⟨ro, h1, h2⟩ := best_exact config preroll data search a ha s s.pos _
    (List.getElem?_eq_getElem hs)
  rw [Technique.codes, hg]
  show ∃ c, Lookahead.runGreedy _ _ = _ ∧ _
  rw [Lookahead.runGreedy, Looker.best]
  show ∃ c, ((Technique.mk config a).bestCandidateBetterThan s s.pos none >>= _) = _ ∧ _
  rw [h1, Ex.ok_bind, ← h2]
  cases ro with
  | none =>
    refine ⟨.literal _, rfl, fun c' => ?_⟩
    cases c' with
    | literal b =>
      simp only [says, Option.map_none, Option.isNone_none, Bool.true_and, Code.literal.injEq]
      rw [List.getElem?_eq_getElem hs, beq_iff_eq, Option.some.injEq]
      exact eq_comm
    | reference r => simp [says]
  | some r =>
    refine ⟨.reference r, rfl, fun c' => ?_⟩
    cases c' with
    | literal b => simp [says]
    | reference q =>
      simp only [says, Option.map_some, beq_iff_eq, Option.some.injEq, Prod.mk.injEq,
        Code.reference.injEq]
      constructor
      · rintro ⟨e1, e2⟩
        obtain ⟨d, n⟩ := r
        obtain ⟨d', n'⟩ := q
        have e1 : d.toNat = d'.toNat := e1
        have e2 : n.toNat + 3 = n'.toNat + 3 := e2
        have e1 : d = d' := UInt16.toNat_inj.1 e1
        have e2 : n = n' := UInt8.toNat_inj.1 (by omega)
        rw [e1, e2]
      · rintro rfl; exact ⟨rfl, rfl⟩

theorem gzip_settings {level : Nat} {st : Settings} (hst : gzipSettings level = some st) :
    ∃ config, Config.gzip level = .ok config ∧ config.settings = st ∧ config.lookahead = .greedy := by
  unfold gzipSettings at hst
  by_cases h0 : level = 0
  · rw [if_pos h0] at hst; cases hst
  · rw [if_neg h0, Option.map_eq_some_iff] at hst
    obtain ⟨⟨good, lazy_, nice, chain⟩, hrow, rfl⟩ := hst
    obtain ⟨config, h1, h2, h3, h4, h5, h6, h7, h8⟩ :=
      C66_presets level good lazy_ nice chain (by omega) hrow
    refine ⟨config, h1, ?_, h3⟩
    unfold Config.settings
    rw [h5, h6, h7]
    congr 1
    rw [Bool.eq_iff_iff, decide_eq_true_iff, ← h4, beq_iff_eq]

/-- C69 for the gzip presets. -/
theorem C69_gzip (level : Nat) (st : Settings) (hst : gzipSettings level = some st)
    (preroll data : List UInt8) (search : Nat) :
    ∃ config a, Config.gzip level = .ok config ∧
      AllRefs.withSixteen preroll data search = .ok a ∧
      ∀ s : Scanner, s.pos < (preroll ++ data).length →
        ∃ c, (Technique.mk config a).codes s = .ok [c] ∧
          ∀ c', says (preroll ++ data) s.pos
            (guess st search (preroll ++ data) s.pos s.obscured) c' = true ↔ c' = c := by
  obtain ⟨config, hc, hs, hg⟩ := gzip_settings hst
  obtain ⟨a, ha, _⟩ := AllRefs.withSixteen_ok preroll data search
  refine ⟨config, a, hc, ha, fun s hlt => ?_⟩
  rw [← hs]
  exact C69_greedy config hg preroll data search a ha s hlt

/-- Level 1 at the end of `xabcdabc`: the match of length three four back. At level 4 the same three bytes
more than 4096 back would be dropped. -/
example : gzipSettings 1 = some ⟨8, 4, false, some 4⟩ ∧ gzipSettings 4 = some ⟨16, 16, true, none⟩ ∧
    guess ⟨8, 4, false, some 4⟩ 4 [120, 97, 98, 99, 100, 97, 98, 99] 5 [] = some (4, 3) ∧
    guess ⟨8, 4, false, some 4⟩ 4 [120, 97, 98, 99, 100, 97, 98, 99] 5 [(0, 5)] = none := by
  decide +kernel

/-! ### C70 -/

theorem traceLoop_single {t : Technique} {fuel : Nat} {s : Scanner} {g c : Code} {cs : List Code}
    (h1 : t.moreData s = true) (h2 : t.codes s = .ok [g]) :
    Tracing.traceLoop t (fuel + 1) s (c :: cs) =
      (Tracing.traceLoop t fuel (t.feedback s c) cs).map
        ((if c = g then Trace.correct else Tracing.hintFor c) :: ·) := by
  rw [Tracing.traceLoop, if_pos h1, h2, Ex.ok_bind]
  rw [show assert (!([g] : List Code).isEmpty) = .ok () from rfl, Ex.ok_bind]
  by_cases e : c = g
  · subst e
    rw [Tracing.sharedPrefix, if_pos rfl, Tracing.sharedPrefix, if_pos rfl]
    · show (Tracing.traceLoop t fuel (t.feedback s c) cs >>= _) = _
      cases Tracing.traceLoop t fuel (t.feedback s c) cs <;> rfl
    · intro _ _ _ _ h; cases h
  · rw [Tracing.sharedPrefix, if_neg e, if_neg e]
    show (Tracing.traceLoop t fuel (t.feedback s c) cs >>= _) = _
    cases Tracing.traceLoop t fuel (t.feedback s c) cs <;> rfl

theorem refTrace_loop {config : Config} (hg : config.lookahead = .greedy) {preroll data : List UInt8}
    {search : Nat} {a : AllRefs} (ha : AllRefs.withSixteen preroll data search = .ok a)
    (fuel : Nat) (s : Scanner) (codes : List Code)
    (hs : s.pos + (codes.map Code.emittedBytes).sum = (preroll ++ data).length)
    (hf : codes.length < fuel) :
    Tracing.traceLoop ⟨config, a⟩ fuel s codes =
      .ok (refTrace config.settings search (preroll ++ data) s.pos s.obscured codes) := by
  obtain ⟨a', h3, e1, e2, _⟩ := AllRefs.withSixteen_ok preroll data search
  rw [ha] at h3; cases h3
  have hw : a.win = preroll ++ data := by rw [← e1, ← e2]; rfl
  induction codes generalizing fuel s with
  | nil =>
    cases fuel with
    | zero => omega
    | succ fuel =>
      rw [Tracing.traceLoop, Tracing.moreData_iff]
      simp only [List.map_nil, List.sum_nil, Nat.add_zero] at hs
      dsimp only
      rw [hw, show decide (s.pos < (preroll ++ data).length) = false by
        rw [hs]; simp]
      rfl
  | cons c cs ih =>
    cases fuel with
    | zero => omega
    | succ fuel =>
      rw [List.map_cons, List.sum_cons] at hs
      have hc := c.emittedBytes_pos
      have hlt : s.pos < (preroll ++ data).length := by omega
      obtain ⟨g, g1, g2⟩ := C69_greedy config hg preroll data search a ha s hlt
      have ih' := ih fuel ((Technique.mk config a).feedback s c)
        (by rw [Tracing.feedback_pos]; omega) (by simpa using hf)
      rw [traceLoop_single (by rw [Tracing.moreData_iff, hw]; simpa using hlt) g1, ih',
        Tracing.feedback_pos]
      have hob : ((Technique.mk config a).feedback s c).obscured =
          s.obscured ++ recordedRuns config.wams.insertOnlyBelowLength s.pos [c] := by
        have := C55_recorded (Technique.mk config a) s [c]
        rw [Tracing.feedAll, Tracing.feedAll] at this
        rw [this]
      rw [hob]
      show Except.ok _ = Except.ok _
      congr 1
      have hcg : (if c = g then Trace.correct else Tracing.hintFor c) =
          if says (preroll ++ data) s.pos
            (guess config.settings search (preroll ++ data) s.pos s.obscured) c = true
          then Trace.correct else Tracing.hintFor c := by
        by_cases e : c = g
        · rw [if_pos e, if_pos ((g2 c).2 e)]
        · rw [if_neg e, if_neg (fun h => e ((g2 c).1 h))]
      rw [hcg]
      cases c with
      | literal b =>
        rw [refTrace, recordedRuns, recordedRuns, List.append_nil]
        rfl
      | reference r =>
        rw [refTrace]
        show _ :: refTrace _ _ _ (s.pos + r.run) _ _ = _
        congr 2
        show _ = if (config.wams.insertOnlyBelowLength).any _ = true then _ else _
        cases config.wams.insertOnlyBelowLength with
        | none => simp [recordedRuns]
        | some l =>
          by_cases hl : l < r.run <;> simp [hl, recordedRuns]

/-- C70. Tracing with a gzip preset, exactly: on codes that emit exactly the data the trace has one entry per
code, `Correct` where the code is the guess of the reference description given the codes before it, and the
code otherwise. -/
theorem C70_trace (level : Nat) (st : Settings) (hst : gzipSettings level = some st)
    (preroll data : List UInt8) (search : Nat) (codes : List Code)
    (hs : (codes.map Code.emittedBytes).sum = data.length) :
    ∃ config a, Config.gzip level = .ok config ∧
      AllRefs.withSixteen preroll data search = .ok a ∧
      Tracing.trace codes ⟨config, a⟩ =
        .ok (refTrace st search (preroll ++ data) preroll.length [] codes) := by
  obtain ⟨config, hc, hset, hg⟩ := gzip_settings hst
  obtain ⟨a, ha, e1, e2, _⟩ := AllRefs.withSixteen_ok preroll data search
  refine ⟨config, a, hc, ha, ?_⟩
  have hlen : codes.length ≤ (codes.map Code.emittedBytes).sum := by
    clear hs
    induction codes with
    | nil => simp
    | cons c cs ih =>
      have := c.emittedBytes_pos
      rw [List.map_cons, List.sum_cons, List.length_cons]
      omega
  rw [Tracing.trace, refTrace_loop hg ha, hset]
  · show Except.ok (refTrace _ _ _ a.preroll.length _ _) = _
    rw [e1]
    rfl
  · show a.preroll.length + _ = _
    rw [e1, hs, List.length_append]
  · show _ < a.dataLen + 1
    rw [AllRefs.dataLen, e1, e2]
    omega

/-- C70 for the gzip tracer, which looks at as many positions as the level's insertion limit (levels 1
to 3) or at 65535. -/
theorem C70_try_gzip (level : Nat) (st : Settings) (hst : gzipSettings level = some st)
    (data : List UInt8) (codes : List Code) (he : lzExpand 32768 [] codes = some data) :
    Tracer.tryGzip level [] data codes = .ok (refTrace st (st.insert.getD 65535) data 0 [] codes) := by
  obtain ⟨config, hc, hset, hg⟩ := gzip_settings hst
  have hlv : 1 ≤ level ∧ level ≤ 9 := by
    apply Decidable.byContradiction
    intro hn
    rw [C66_level_range level hn] at hc
    cases hc
  obtain ⟨tr, h1, _⟩ := C43_expand level hlv.1 hlv.2 data codes he
  obtain ⟨config', a, hc', ha, ht⟩ := C70_trace level st hst [] data (st.insert.getD 65535) codes
    (sum_of_expand he)
  rw [hc] at hc'; cases hc'
  rw [h1]
  rw [Tracer.tryGzip, hc, Ex.ok_bind, Tracer.try_] at h1
  have hins : config.wams.insertOnlyBelowLength = st.insert := by rw [← hset]; rfl
  rw [hins, ha, Ex.ok_bind, Tracing.validate, ht, Ex.ok_bind] at h1
  cases hr : Tracing.restore (refTrace st (st.insert.getD 65535) ([] ++ data) ([] : List UInt8).length
      [] codes) ⟨config, a⟩ with
  | error e => rw [hr] at h1; cases h1
  | ok restored =>
    rw [hr, Ex.ok_bind] at h1
    cases hq : assert (codes == restored) with
    | error e => rw [hq] at h1; cases h1
    | ok u =>
      rw [hq, Ex.ok_bind] at h1
      cases hv : SerialiseTrace.verify (refTrace st (st.insert.getD 65535) ([] ++ data)
          ([] : List UInt8).length [] codes) with
      | error e =>
        have h1 : (SerialiseTrace.verify _ >>= fun _ => _) = Except.ok tr := h1
        rw [hv] at h1; cases h1
      | ok x =>
        have h1 : (SerialiseTrace.verify _ >>= fun _ => _) = Except.ok tr := h1
        rw [hv, Ex.ok_bind] at h1
        cases h1
        rfl

/-- Level 1 on `xabcdabc`: everything as guessed, except a literal where a match would have done. -/
example :
    refTrace ⟨8, 4, false, some 4⟩ 4 [120, 97, 98, 99, 100, 97, 98, 99] 0 []
      [.literal 120, .literal 97, .literal 98, .literal 99, .literal 100, .reference ⟨4, 0⟩] =
      [.correct, .correct, .correct, .correct, .correct, .correct] ∧
    refTrace ⟨8, 4, false, some 4⟩ 4 [120, 97, 98, 99, 100, 97, 98, 99] 0 []
      [.literal 120, .literal 97, .literal 98, .literal 99, .literal 100, .literal 97, .literal 98,
        .literal 99] =
      [.correct, .correct, .correct, .correct, .correct, .actuallyLiteral, .correct, .correct] ∧
    lzExpand 32768 [] [.literal 120, .literal 97, .literal 98, .literal 99, .literal 100,
      .reference ⟨4, 0⟩] = some [120, 97, 98, 99, 100, 97, 98, 99] := by
  decide +kernel

end Rezip
