import Verif.Lemmas.Parse
import Verif.Lemmas.Circles
import Verif.Spec.Match

/-! The position index and the candidate search. -/

namespace Rezip

theorem latestFirst_succ (p : Nat → Bool) (n : Nat) :
    latestFirst p (n + 1) = if p n then n :: latestFirst p n else latestFirst p n := by
  unfold latestFirst
  rw [List.range_succ, List.filter_append, List.reverse_append]
  by_cases h : p n <;> simp [h]

theorem mem_latestFirst {p : Nat → Bool} {n j : Nat} :
    j ∈ latestFirst p n ↔ j < n ∧ p j = true := by
  simp [latestFirst]

theorem latestFirst_sorted (p : Nat → Bool) (n : Nat) :
    (latestFirst p n).Pairwise (· > ·) := by
  unfold latestFirst
  rw [List.pairwise_reverse]
  exact List.Pairwise.filter _ List.pairwise_lt_range

theorem latestFirst_filter_lt (p : Nat → Bool) (n m : Nat) (h : m ≤ n) :
    (latestFirst p n).filter (fun j => decide (j < m)) = latestFirst p m := by
  induction n with
  | zero => have : m = 0 := by omega
            subst this; rfl
  | succ n ih =>
    by_cases hm : m = n + 1
    · subst hm
      apply List.filter_eq_self.2
      intro a ha
      simpa using (mem_latestFirst.1 ha).1
    · rw [latestFirst_succ]
      have hlt : ¬ n < m := by omega
      by_cases hp : p n
      · rw [if_pos hp, List.filter_cons, if_neg (by simpa using hlt)]
        exact ih (by omega)
      · rw [if_neg hp]; exact ih (by omega)

theorem latestFirst_filter (p q : Nat → Bool) (n : Nat) :
    (latestFirst p n).filter q = latestFirst (fun j => p j && q j) n := by
  unfold latestFirst
  rw [List.filter_reverse, List.filter_filter]
  congr 2
  funext j
  exact Bool.and_comm _ _

namespace BackMap

theorem windows_length (w : List UInt8) : (windows w).length = w.length - 2 := by
  induction w using windows.induct with
  | case1 a b c rest ih => rw [windows, List.length_cons, ih]; simp
  | case2 l h =>
    rw [windows]
    · match l, h with
      | [], _ => rfl
      | [_], _ => rfl
      | [_, _], _ => rfl
      | a :: b :: c :: r, h => exact absurd rfl (h a b c r)
    · exact h

theorem windows_getElem? (w : List UInt8) (j : Nat) : (windows w)[j]? = threeAt w j := by
  induction w using windows.induct generalizing j with
  | case1 a b c rest ih =>
    rw [windows]
    cases j with
    | zero => rfl
    | succ j =>
      rw [List.getElem?_cons_succ, ih]
      have e : ∀ i, (a :: b :: c :: rest)[i + 1]? = (b :: c :: rest)[i]? :=
        fun i => List.getElem?_cons_succ
      unfold threeAt
      rw [e j, e (j + 1), show j + 1 + 2 = (j + 2) + 1 from rfl, e (j + 2)]
  | case2 l h =>
    have : windows l = [] := by
      rw [windows]; exact h
    rw [this, List.getElem?_nil]
    unfold threeAt
    match l, h with
    | [], _ => simp
    | [_], _ => cases j <;> simp
    | [_, _], _ => cases j <;> simp
    | a :: b :: c :: r, h => exact absurd rfl (h a b c r)

/-- The last `j < n` with `p j`, or zero. -/
def last (p : Nat → Bool) : Nat → Nat
  | 0 => 0
  | n + 1 => if p n then n else last p n

theorem last_lt (p : Nat → Bool) {n : Nat} (h : 0 < n) : last p n < n := by
  induction n with
  | zero => omega
  | succ n ih =>
    rw [last]
    split
    · omega
    · cases n with
      | zero => simp [last]
      | succ n => have := ih (by omega); omega

theorem last_sat (p : Nat → Bool) {n : Nat} (h : last p n ≠ 0) : p (last p n) = true := by
  induction n with
  | zero => exact absurd rfl h
  | succ n ih =>
    rw [last] at h ⊢
    split
    · assumption
    · rename_i hp
      rw [if_neg hp] at h
      exact ih h

/-- The non-zero positions below `n`, found by following `last`. -/
theorem latestFirst_last (p : Nat → Bool) (n : Nat) :
    latestFirst (fun j => decide (0 < j) && p j) n =
      if last p n = 0 then [] else latestFirst (fun j => decide (0 < j) && p j) (last p n + 1) := by
  induction n with
  | zero => rfl
  | succ n ih =>
    rw [latestFirst_succ, last]
    by_cases hp : p n
    · rw [if_pos hp]
      by_cases h0 : n = 0
      · subst h0; rfl
      · rw [if_neg h0, if_pos (by simp [hp]; omega), latestFirst_succ, if_pos (by simp [hp]; omega)]
    · rw [if_neg hp, if_neg (by simp [hp])]
      exact ih

/-- The state of the table after the first `n` windows of `w`. -/
structure Upto (w : List UInt8) (n : Nat) (t : BackMap) : Prop where
  heads : ∀ h, t.hashToPos h = last (hashesTo w h) n
  len : t.posToPos.length = w.length
  links : ∀ j, j < n → ∀ k, threeAt w j = some k →
    t.posToPos[j]? = some (last (hashesTo w k.hash16) j)

theorem threeAt_some {w : List UInt8} {j : Nat} (h : j + 2 < w.length) :
    threeAt w j = some { b0 := w[j], b1 := w[j + 1], b2 := w[j + 2] } := by
  unfold threeAt
  rw [List.getElem?_eq_getElem (by omega), List.getElem?_eq_getElem (by omega),
    List.getElem?_eq_getElem h]

theorem threeAt_lt {w : List UInt8} {j : Nat} {k : Key} (h : threeAt w j = some k) :
    j + 2 < w.length := by
  apply Decidable.byContradiction
  intro hn
  have : w[j + 2]? = none := List.getElem?_eq_none (by omega)
  unfold threeAt at h
  rw [this] at h
  split at h <;> simp_all

theorem insertAll_ok {w : List UInt8} (n : Nat) (t : BackMap) (h : Upto w n t)
    (hn : n ≤ w.length - 2) :
    ∃ t', insertAll t n ((windows w).drop n) = .ok t' ∧ Upto w (w.length - 2) t' := by
  induction hk : w.length - 2 - n generalizing n t with
  | zero =>
    have : n = w.length - 2 := by omega
    subst this
    rw [List.drop_of_length_le (by rw [windows_length]; omega)]
    exact ⟨t, rfl, h⟩
  | succ k ih =>
    have hlt : n < (windows w).length := by rw [windows_length]; omega
    have hk3 : threeAt w n = some (windows w)[n] := by
      rw [← windows_getElem?, List.getElem?_eq_getElem hlt]
    rw [List.drop_eq_getElem_cons hlt, insertAll, insert]
    generalize (windows w)[n] = key at hk3
    rw [indexSet_ok (by rw [h.len]; omega), Ex.ok_bind, Ex.pure_eq, Ex.ok_bind]
    apply ih (n + 1) _ _ (by omega) (by omega)
    refine ⟨?_, ?_, ?_⟩
    · intro g
      dsimp only
      rw [last]
      have : hashesTo w g n = (key.hash16 == g) := by unfold hashesTo; rw [hk3]
      rw [this]
      by_cases hg : g = key.hash16
      · subst hg; simp
      · rw [if_neg hg, if_neg (by simpa using Ne.symm hg)]
        exact h.heads g
    · simpa using h.len
    · intro j hj k' hk'
      dsimp only
      by_cases hjn : j = n
      · subst hjn
        rw [hk3] at hk'
        cases hk'
        rw [List.getElem?_set_self (by rw [h.len]; omega), h.heads]
      · rw [List.getElem?_set_ne (Ne.symm hjn)]
        exact h.links j (by omega) k' hk'

theorem fromWindow_ok (preroll data : List UInt8) :
    ∃ t, fromWindow preroll data = .ok t ∧
      Upto (preroll ++ data) ((preroll ++ data).length - 2) t := by
  unfold fromWindow
  have := insertAll_ok (w := preroll ++ data) 0
    { hashToPos := fun _ => 0, posToPos := List.replicate (preroll.length + data.length) 0 }
    ⟨fun _ => rfl, by simp, fun j hj => by omega⟩ (by omega)
  simpa using this

theorem chain_ok {w : List UInt8} {t : BackMap} (h : Upto w (w.length - 2) t) (hash : Nat)
    (c fuel : Nat) (hf : c < fuel) (hc0 : 0 < c) (hc : hashesTo w hash c = true) :
    chain t.posToPos fuel (some c) =
      .ok (latestFirst (fun j => decide (0 < j) && hashesTo w hash j) (c + 1)) := by
  induction c using Nat.strongRecOn generalizing fuel with
  | ind c ih =>
    cases fuel with
    | zero => omega
    | succ fuel =>
      obtain ⟨k, hk, hkh⟩ : ∃ k, threeAt w c = some k ∧ k.hash16 = hash := by
        unfold hashesTo at hc
        split at hc
        · exact ⟨_, by assumption, by simpa using hc⟩
        · cases hc
      have hlt := threeAt_lt hk
      have hlink := h.links c (by omega) k hk
      rw [hkh] at hlink
      have hcc : (decide (0 < c) && hashesTo w hash c) = true := by simp [hc, hc0]
      rw [chain, index_eq_ok.2 hlink, Ex.ok_bind, latestFirst_succ, if_pos hcc, latestFirst_last]
      have hl := last_lt (hashesTo w hash) hc0
      by_cases h0 : last (hashesTo w hash) c = 0
      · rw [if_pos h0, if_pos h0]
        cases fuel <;> rfl
      · rw [if_neg h0, if_neg h0, ih _ hl fuel (by omega) (by omega) (last_sat _ h0)]
        rfl

theorem get_ok {w : List UInt8} {t : BackMap} (h : Upto w (w.length - 2) t) {key : Key} {j : Nat}
    (hj : 0 < j) (hk : hashesTo w key.hash16 j = true) :
    t.get key = .ok (latestFirst (fun j => decide (0 < j) && hashesTo w key.hash16 j)
      (w.length - 2)) := by
  have hlt : j + 2 < w.length := by
    unfold hashesTo at hk
    split at hk
    · rename_i h3; exact threeAt_lt h3
    · cases hk
  have hmem : j ∈ latestFirst (fun j => decide (0 < j) && hashesTo w key.hash16 j)
      (w.length - 2) := mem_latestFirst.2 ⟨by omega, by simp [hj, hk]⟩
  rw [latestFirst_last] at hmem ⊢
  rw [get, h.heads]
  by_cases h0 : last (hashesTo w key.hash16) (w.length - 2) = 0
  · rw [if_pos h0] at hmem; cases hmem
  · rw [if_neg h0]
    have := last_lt (hashesTo w key.hash16) (n := w.length - 2) (by omega)
    exact chain_ok h _ _ _ (by rw [h.len]; omega) (by omega) (last_sat _ h0)

end BackMap

namespace AllRefs

/-- The window. -/
def win (a : AllRefs) : List UInt8 := a.preroll ++ a.data

/-- The index is the one built from the window. -/
def Built (a : AllRefs) : Prop := BackMap.Upto a.win (a.win.length - 2) a.map

theorem withSixteen_ok (preroll data : List UInt8) (limit : Nat) :
    ∃ a, withSixteen preroll data limit = .ok a ∧ a.preroll = preroll ∧ a.data = data ∧
      a.limit = limit ∧ a.Built := by
  obtain ⟨t, h1, h2⟩ := BackMap.fromWindow_ok preroll data
  refine ⟨{ preroll := preroll, data := data, map := t, limit := limit }, ?_, rfl, rfl, rfl, h2⟩
  rw [withSixteen, h1]; rfl

theorem dataLen_eq (a : AllRefs) : a.dataLen = a.win.length := by simp [dataLen, win]

theorem get_eq (a : AllRefs) (pos : Nat) : a.get pos = index a.win pos := by
  unfold get index win
  by_cases h : pos < a.preroll.length
  · rw [if_pos h, List.getElem?_append_left h]
  · rw [if_neg h, List.getElem?_append_right (by omega)]

theorem get_ok {a : AllRefs} {pos : Nat} (h : pos < a.win.length) :
    a.get pos = .ok a.win[pos] := by rw [get_eq, index_ok h]

theorem key_eq (a : AllRefs) (pos : Nat) : a.key pos = .ok (threeAt a.win pos) := by
  unfold key
  rw [dataLen_eq]
  by_cases h : pos + 2 < a.win.length
  · rw [if_pos h, get_ok (by omega), Ex.ok_bind, get_ok (by omega), Ex.ok_bind, get_ok h, Ex.ok_bind,
      BackMap.threeAt_some h]
    rfl
  · rw [if_neg h]
    cases h3 : threeAt a.win pos with
    | none => rfl
    | some k => exact absurd (BackMap.threeAt_lt h3) h

theorem upcoming_ok {a : AllRefs} {pos : Nat} (i n : Nat) (h : pos + i + n ≤ a.win.length) :
    a.upcoming pos i n = .ok ((a.win.drop (pos + i)).take n) := by
  induction n generalizing i with
  | zero => rfl
  | succ n ih =>
    rw [upcoming, get_ok (by omega), Ex.ok_bind, ih (i + 1) (by omega), Ex.ok_bind]
    rw [show pos + (i + 1) = pos + i + 1 by omega, Ex.pure_eq,
      List.drop_eq_getElem_cons (i := pos + i) (by omega), List.take_succ_cons]

/-- The first `i` from `cur` on, among `n`, for which `m i` fails. -/
def firstFail (m : Nat → Bool) : Nat → Nat → Option Nat
  | _, 0 => none
  | cur, n + 1 => if m cur then firstFail m (cur + 1) n else some cur

theorem firstFail_append (m : Nat → Bool) (cur n k : Nat) :
    firstFail m cur (n + k) = match firstFail m cur n with
      | some c => some c
      | none => firstFail m (cur + n) k := by
  induction n generalizing cur with
  | zero => simp [firstFail]
  | succ n ih =>
    rw [show n + 1 + k = n + k + 1 by omega, firstFail, firstFail]
    by_cases h : m cur
    · rw [if_pos h, if_pos h, ih, show cur + 1 + n = cur + (n + 1) by omega]
    · rw [if_neg h, if_neg h]

theorem firstFail_some {m : Nat → Bool} {cur n c : Nat} (h : firstFail m cur n = some c) :
    cur ≤ c ∧ c < cur + n ∧ m c = false ∧ ∀ i, cur ≤ i → i < c → m i = true := by
  induction n generalizing cur with
  | zero => cases h
  | succ n ih =>
    rw [firstFail] at h
    by_cases hm : m cur
    · rw [if_pos hm] at h
      obtain ⟨h1, h2, h3, h4⟩ := ih h
      refine ⟨by omega, by omega, h3, fun i hi hi2 => ?_⟩
      by_cases e : i = cur
      · subst e; exact hm
      · exact h4 i (by omega) hi2
    · rw [if_neg hm] at h
      cases h
      exact ⟨Nat.le_refl _, by omega, by simpa using hm, fun i h1 h2 => by omega⟩

theorem firstFail_none {m : Nat → Bool} {cur n : Nat} (h : firstFail m cur n = none) :
    ∀ i, cur ≤ i → i < cur + n → m i = true := by
  induction n generalizing cur with
  | zero => intro i h1 h2; omega
  | succ n ih =>
    rw [firstFail] at h
    by_cases hm : m cur
    · rw [if_pos hm] at h
      intro i h1 h2
      by_cases e : i = cur
      · subst e; exact hm
      · exact ih h i (by omega) (by omega)
    · rw [if_neg hm] at h; cases h

/-- Does byte `i` after `pos` equal the one `dist` before it? -/
def eqAt (w : List UInt8) (pos dist i : Nat) : Bool := w[pos + i]? == w[pos + i - dist]?

theorem runLoop1_ok {a : AllRefs} {pos dist L : Nat} (hd : dist ≤ pos) (hL : pos + L ≤ a.win.length)
    (cur n : Nat) (hc : cur + n ≤ min dist L) :
    a.runLoop1 pos dist ((a.win.drop pos).take L) cur n =
      .ok (firstFail (eqAt a.win pos dist) cur n) := by
  induction n generalizing cur with
  | zero => rfl
  | succ n ih =>
    rw [runLoop1, firstFail, index_ok (by rw [List.length_take, List.length_drop]; omega),
      Ex.ok_bind, getAtDist, if_pos (by omega), get_ok (by omega), Ex.ok_bind, ih (cur + 1) (by omega)]
    have e1 : ((a.win.drop pos).take L)[cur]'(by rw [List.length_take, List.length_drop]; omega) =
        a.win[pos + cur] := by simp
    have e2 : eqAt a.win pos dist cur = (a.win[pos + cur] == a.win[pos - (dist - cur)]) := by
      unfold eqAt
      rw [List.getElem?_eq_getElem (by omega), List.getElem?_eq_getElem (by omega)]
      simp only [show pos + cur - dist = pos - (dist - cur) by omega]
      rfl
    rw [e1, e2]
    by_cases hb : a.win[pos + cur] = a.win[pos - (dist - cur)]
    · simp [hb]
    · rw [if_pos (by simpa using hb), if_neg (by simpa using hb)]; rfl

theorem mod_match {w : List UInt8} {pos dist : Nat} (hd : 1 ≤ dist) (cur : Nat)
    (h : ∀ i, i < cur → eqAt w pos dist i = true) (hc : dist ≤ cur) :
    w[pos + cur % dist]? = w[pos + cur - dist]? := by
  have key : ∀ i, i < cur → w[pos + i % dist]? = w[pos + i]? := by
    intro i hi
    induction i using Nat.strongRecOn with
    | ind i ih =>
      by_cases hid : i < dist
      · rw [Nat.mod_eq_of_lt hid]
      · have := ih (i - dist) (by omega) (by omega)
        rw [Nat.mod_eq_sub_mod (by omega), this]
        have he := h i hi
        unfold eqAt at he
        rw [eq_of_beq he]
        congr 1
        omega
  have := key (cur - dist) (by omega)
  rw [Nat.mod_eq_sub_mod hc, this]
  congr 1
  omega

theorem runLoop2_ok {a : AllRefs} {pos dist L : Nat} (hd : 1 ≤ dist) (hL : pos + L ≤ a.win.length)
    (cur n : Nat) (hc : n = L - cur) (hdc : dist ≤ cur)
    (hm : ∀ i, i < cur → eqAt a.win pos dist i = true) :
    runLoop2 dist ((a.win.drop pos).take L) cur n =
      .ok (firstFail (eqAt a.win pos dist) cur n) := by
  induction n generalizing cur with
  | zero => rfl
  | succ n ih =>
    have hlt : cur % dist < dist := Nat.mod_lt _ (by omega)
    have i1 : index ((a.win.drop pos).take L) (cur % dist) = .ok (a.win[pos + cur % dist]) := by
      rw [index_eq_ok, List.getElem?_take, if_pos (by omega), List.getElem?_drop,
        List.getElem?_eq_getElem (by omega)]
    have i2 : index ((a.win.drop pos).take L) cur = .ok (a.win[pos + cur]) := by
      rw [index_eq_ok, List.getElem?_take, if_pos (by omega), List.getElem?_drop,
        List.getElem?_eq_getElem (by omega)]
    rw [runLoop2, firstFail, if_neg (by omega), i1, Ex.ok_bind, i2, Ex.ok_bind]
    have e2 : eqAt a.win pos dist cur = (a.win[pos + cur % dist] == a.win[pos + cur]) := by
      have := mod_match hd cur hm hdc
      unfold eqAt
      rw [← this, List.getElem?_eq_getElem (by omega), List.getElem?_eq_getElem (by omega)]
      rw [Bool.eq_iff_iff, beq_iff_eq, beq_iff_eq, Option.some.injEq]
      exact eq_comm
    rw [e2]
    by_cases hb : a.win[pos + cur % dist] = a.win[pos + cur]
    · rw [if_neg (by simpa using hb), if_pos (by simpa using hb), ih (cur + 1) (by omega) (by omega)]
      intro i hi
      by_cases e : i = cur
      · subst e; rw [e2]; simpa using hb
      · exact hm i (by omega)
    · rw [if_pos (by simpa using hb), if_neg (by simpa using hb)]; rfl

/-- The run found at a distance where three bytes match: the longest match. -/
theorem possibleRunLengthAt_ok {a : AllRefs} {pos dist : Nat} (hd : 1 ≤ dist) (hp : dist ≤ pos)
    (h3 : MatchesFor a.win pos dist 3) :
    ∃ run, a.possibleRunLengthAt pos dist = .ok run ∧ 3 ≤ run ∧ run ≤ 258 ∧
      MatchesFor a.win pos dist run ∧
      (run = 258 ∨ pos + run = a.win.length ∨ a.win[pos + run]? ≠ a.win[pos + run - dist]?) := by
  have hlen := h3.1
  have hm3 : ∀ i, i < 3 → eqAt a.win pos dist i = true := fun i hi => by
    unfold eqAt; rw [h3.2 i hi]; exact beq_self_eq_true _
  rw [possibleRunLengthAt, dataLen_eq, if_neg (by omega)]
  dsimp only
  generalize hL : min 258 (a.win.length - pos) = L
  rw [upcoming_ok 0 L (by omega), Ex.ok_bind, Nat.add_zero]
  have base : ∀ c, (∀ i, i < c → eqAt a.win pos dist i = true) → c ≤ L →
      MatchesFor a.win pos dist c := by
    intro c hc hcL
    exact ⟨by omega, fun i hi => eq_of_beq (hc i hi)⟩
  have stop : ∀ c, 3 ≤ c → c < L → (∀ i, i < c → eqAt a.win pos dist i = true) →
      eqAt a.win pos dist c = false → 3 ≤ c ∧ c ≤ 258 ∧ MatchesFor a.win pos dist c ∧
      (c = 258 ∨ pos + c = a.win.length ∨ a.win[pos + c]? ≠ a.win[pos + c - dist]?) := by
    intro c h1 h2 h4 h5
    refine ⟨h1, by omega, base c h4 (by omega), .inr (.inr ?_)⟩
    unfold eqAt at h5
    exact ne_of_beq_false h5
  have r1 : a.runLoop1 pos dist ((a.win.drop pos).take L) 3 (min dist L - 3) =
      .ok (firstFail (eqAt a.win pos dist) 3 (min dist L - 3)) := by
    by_cases hsm : min dist L ≤ 3
    · rw [show min dist L - 3 = 0 by omega]; rfl
    · exact runLoop1_ok hp (by omega) 3 _ (by omega)
  rw [r1, Ex.ok_bind]
  cases hf : firstFail (eqAt a.win pos dist) 3 (min dist L - 3) with
  | some c =>
    obtain ⟨c1, c2, c3, c4⟩ := firstFail_some hf
    refine ⟨c, rfl, stop c c1 (by omega) (fun i hi => ?_) c3⟩
    by_cases h : i < 3
    · exact hm3 i h
    · exact c4 i (by omega) hi
  | none =>
    dsimp only
    have hall : ∀ i, i < max 3 (min dist L) → eqAt a.win pos dist i = true := by
      intro i hi
      by_cases h : i < 3
      · exact hm3 i h
      · exact firstFail_none hf i (by omega) (by omega)
    by_cases hdL : L ≤ dist
    · rw [show L - dist = 0 by omega]
      refine ⟨L, rfl, by omega, by omega, base L (fun i hi => hall i (by omega)) (by omega), ?_⟩
      by_cases h : L = 258
      · exact .inl h
      · exact .inr (.inl (by omega))
    · rw [runLoop2_ok hd (by omega) dist (L - dist) rfl (by omega)
        (fun i hi => hall i (by omega)), Ex.ok_bind]
      cases hf2 : firstFail (eqAt a.win pos dist) dist (L - dist) with
      | some c =>
        obtain ⟨c1, c2, c3, c4⟩ := firstFail_some hf2
        have hc3 : 3 ≤ c := by
          apply Decidable.byContradiction
          intro h
          rw [hm3 c (by omega)] at c3
          cases c3
        refine ⟨c, rfl, stop c hc3 (by omega) (fun i hi => ?_) c3⟩
        by_cases h : i < dist
        · exact hall i (by omega)
        · exact c4 i (by omega) hi
      | none =>
        refine ⟨L, rfl, by omega, by omega, base L (fun i hi => ?_) (by omega), ?_⟩
        · by_cases h : i < dist
          · exact hall i (by omega)
          · exact firstFail_none hf2 i (by omega) (by omega)
        · by_cases h : L = 258
          · exact .inl h
          · exact .inr (.inl (by omega))

theorem matchesAt_ok {a : AllRefs} {k : Key} {off : Nat} (h : off + 2 < a.win.length) :
    a.matchesAt k off = .ok (threeAt a.win off == some k) := by
  rw [matchesAt, get_ok (by omega), Ex.ok_bind, BackMap.threeAt_some h]
  have key : (some ({ b0 := a.win[off], b1 := a.win[off + 1], b2 := a.win[off + 2] } : Key) ==
      some k) = (a.win[off] == k.b0 && (a.win[off + 1] == k.b1 && a.win[off + 2] == k.b2)) := by
    apply Bool.eq_iff_iff.2
    cases k
    simp
  rw [key]
  by_cases h0 : a.win[off] = k.b0
  · rw [if_pos (by simpa using h0), get_ok (by omega), Ex.ok_bind]
    by_cases h1 : a.win[off + 1] = k.b1
    · rw [if_pos (by simpa using h1), get_ok h, Ex.ok_bind]
      simp [h0, h1]
    · rw [if_neg (by simpa using h1)]
      simp [h1]
  · rw [if_neg (by simpa using h0)]
    simp [h0]

theorem three_matches {w : List UInt8} {pos off : Nat} {k : Key} (hk : threeAt w pos = some k)
    (ho : threeAt w off = some k) (hlt : off < pos) : MatchesFor w pos (pos - off) 3 := by
  have h1 := BackMap.threeAt_lt hk
  have h2 := BackMap.threeAt_lt ho
  rw [BackMap.threeAt_some h1] at hk
  rw [BackMap.threeAt_some h2] at ho
  rw [← ho] at hk
  simp only [Option.some.injEq, Key.mk.injEq] at hk
  refine ⟨by omega, fun i hi => ?_⟩
  rw [show pos + i - (pos - off) = off + i by omega]
  rw [List.getElem?_eq_getElem (by omega), List.getElem?_eq_getElem (by omega)]
  match i, hi with
  | 0, _ => simpa using hk.1
  | 1, _ => simpa using hk.2.1
  | 2, _ => simpa using hk.2.2

/-- What the search says about one candidate `r` for position `pos`. -/
structure IsMatch (w : List UInt8) (pos : Nat) (r : Ref) : Prop where
  dist_pos : 1 ≤ r.dist.toNat
  dist_le : r.dist.toNat ≤ 32768
  dist_lt : r.dist.toNat < pos
  matchLen : MatchesFor w pos r.dist.toNat r.run
  maximal : r.run = 258 ∨ pos + r.run = w.length ∨
    w[pos + r.run]? ≠ w[pos + r.run - r.dist.toNat]?

theorem refsFrom_ok {a : AllRefs} {pos : Nat} {k : Key} (hk : threeAt a.win pos = some k)
    (offs : List Nat) (ho : ∀ off ∈ offs, 0 < off ∧ off < pos) :
    ∃ rs, a.refsFrom pos k offs = .ok rs ∧ (∀ r ∈ rs, IsMatch a.win pos r) ∧
      rs.map (fun r => pos - r.dist.toNat) =
        offs.filter (fun off => decide (pos - off ≤ 32768) && threeAt a.win off == some k) := by
  have hlen := BackMap.threeAt_lt hk
  induction offs with
  | nil => exact ⟨[], rfl, by simp, rfl⟩
  | cons off offs ih =>
    obtain ⟨rs, h1, h2, h3⟩ := ih (fun o h => ho o (by simp [h]))
    obtain ⟨o1, o2⟩ := ho off (by simp)
    rw [refsFrom, h1, matchesAt_ok (by omega), Ex.ok_bind]
    by_cases hd : pos - off ≤ 32768
    · rw [if_pos hd]
      by_cases hm : threeAt a.win off = some k
      · rw [if_pos (by simpa using hm)]
        have hmm := three_matches hk hm o2
        obtain ⟨run, r1, r2, r3, r4, r5⟩ := possibleRunLengthAt_ok (a := a) (pos := pos)
          (dist := pos - off) (by omega) (by omega) hmm
        obtain ⟨r, hr⟩ := Ref.new_total (dist := pos - off) (run := run) (by omega) hd r2 r3
        obtain ⟨_, _, _, _, e1, e2⟩ := Ref.new_ok hr
        dsimp only
        rw [r1, Ex.ok_bind, hr, Ex.ok_bind, Ex.ok_bind]
        refine ⟨r :: rs, rfl, ?_, ?_⟩
        · intro x hx
          rcases List.mem_cons.1 hx with rfl | hx
          · exact ⟨by omega, by omega, by omega, by rw [e1, e2]; exact r4, by rw [e1, e2]; exact r5⟩
          · exact h2 x hx
        · rw [List.map_cons, List.filter_cons, if_pos (by simp [hd, hm]), h3, e1]
          congr 1
          omega
      · rw [if_neg (by simpa using hm)]
        refine ⟨rs, rfl, h2, ?_⟩
        rw [List.filter_cons, if_neg (by simp [hm]), h3]
    · rw [if_neg hd]
      refine ⟨rs, rfl, h2, ?_⟩
      rw [List.filter_cons, if_neg (by simp [hd]), h3]

/-- The candidates for a position. -/
theorem at_ok {a : AllRefs} (hb : a.Built) (pos : Nat) (obscura : List Obscure) :
    match threeAt a.win pos with
    | none => a.at_ pos obscura = .ok none
    | some k => ∃ rs, a.at_ pos obscura = .ok (some rs) ∧ (∀ r ∈ rs, IsMatch a.win pos r) ∧
        rs.map (fun r => pos - r.dist.toNat) =
          (((latestFirst (fun j => decide (0 < j) && hashesTo a.win k.hash16 j) pos).filter
            (fun j => !Obscured.contains obscura j)).take a.limit).filter
            (fun off => decide (pos - off ≤ 32768) && threeAt a.win off == some k) := by
  rw [at_, key_eq, Ex.ok_bind]
  cases hk : threeAt a.win pos with
  | none => rfl
  | some k =>
    dsimp only
    have hlen := BackMap.threeAt_lt hk
    by_cases h0 : pos = 0
    · rw [if_pos h0]
      subst h0
      exact ⟨[], rfl, by simp, by simp [latestFirst]⟩
    · rw [if_neg h0]
      have hh : hashesTo a.win k.hash16 pos = true := by unfold hashesTo; rw [hk]; simp
      rw [BackMap.get_ok hb (by omega) hh, Ex.ok_bind]
      rw [latestFirst_filter_lt _ _ _ (by omega), Obscured.obscure]
      obtain ⟨rs, h1, h2, h3⟩ := refsFrom_ok hk
        (((latestFirst (fun j => decide (0 < j) && hashesTo a.win k.hash16 j) pos).filter
            (fun j => !Obscured.contains obscura j)).take a.limit) (by
          intro off ho
          have := mem_latestFirst.1 (List.mem_filter.1 (List.mem_of_mem_take ho)).1
          simp at this
          omega)
      rw [h1]
      exact ⟨rs, rfl, h2, h3⟩

/-- A match is a copy. -/
theorem lzCopy_match {w : List UInt8} {pos dist n : Nat} (hd : 1 ≤ dist) (hp : dist ≤ pos)
    (h : MatchesFor w pos dist n) : lzCopy (w.take pos) dist n = (w.drop pos).take n := by
  obtain ⟨h1, h2⟩ := h
  induction n generalizing pos with
  | zero => rfl
  | succ n ih =>
    have hl : (w.take pos).length = pos := by rw [List.length_take]; omega
    have h0 := h2 0 (by omega)
    rw [Nat.add_zero] at h0
    have hb : (w.take pos).getD (pos - dist) 0 = w[pos] := by
      rw [List.getD_eq_getElem?_getD, List.getElem?_take, if_pos (by omega), ← h0,
        List.getElem?_eq_getElem (by omega)]
      rfl
    rw [lzCopy, hl]
    rw [hb, List.drop_eq_getElem_cons (i := pos) (by omega), List.take_succ_cons]
    congr 1
    have ht : w.take pos ++ [w[pos]] = w.take (pos + 1) := by
      rw [List.take_add_one, List.getElem?_eq_getElem (by omega)]; rfl
    rw [ht]
    apply ih (by omega) (by omega)
    intro i hi
    have := h2 (i + 1) (by omega)
    rw [show pos + (i + 1) = pos + 1 + i by omega] at this
    exact this

end AllRefs

end Rezip
