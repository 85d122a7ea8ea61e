import Verif.Lemmas.AllRefs
import Verif.Lemmas.Circles
import Verif.Props.AllRefs
import Verif.Model.Trace

/-!
# Guesses: lookahead.rs and technique.rs
-/

namespace Rezip

/-- Codes that describe the window `w` from `pos` on: literals are the bytes there, references are
matches that do not reach the first byte. -/
def GuessFor (w : List UInt8) : Nat → List Code → Prop
  | pos, [] => pos ≤ w.length
  | pos, .literal b :: cs => w[pos]? = some b ∧ GuessFor w (pos + 1) cs
  | pos, .reference r :: cs => AllRefs.IsMatch w pos r ∧ GuessFor w (pos + r.run) cs

theorem lt_of_getElem? {w : List UInt8} {i : Nat} {b : UInt8} (h : w[i]? = some b) :
    i < w.length := by
  apply Decidable.byContradiction
  intro hn
  rw [List.getElem?_eq_none (by omega)] at h
  cases h

theorem AllRefs.IsMatch.le {w : List UInt8} {pos : Nat} {r : Ref} (h : AllRefs.IsMatch w pos r) :
    pos + r.run ≤ w.length := h.matchLen.1

theorem GuessFor.bound {w : List UInt8} {pos : Nat} {cs : List Code} (h : GuessFor w pos cs) :
    pos + (cs.map Code.emittedBytes).sum ≤ w.length := by
  induction cs generalizing pos with
  | nil => simpa [GuessFor] using h
  | cons c cs ih =>
    cases c with
    | literal b => have := ih h.2; simp [Code.emittedBytes]; omega
    | reference r => have := ih h.2; simp [Code.emittedBytes]; omega

theorem GuessFor.append {w : List UInt8} {pos : Nat} {cs ds : List Code} (h : GuessFor w pos cs)
    (h2 : GuessFor w (pos + (cs.map Code.emittedBytes).sum) ds) : GuessFor w pos (cs ++ ds) := by
  induction cs generalizing pos with
  | nil => simpa using h2
  | cons c cs ih =>
    cases c with
    | literal b =>
      exact ⟨h.1, ih h.2 (by simpa [Code.emittedBytes, Nat.add_assoc] using h2)⟩
    | reference r =>
      exact ⟨h.1, ih h.2 (by simpa [Code.emittedBytes, Nat.add_assoc] using h2)⟩

theorem GuessFor.left {w : List UInt8} {pos : Nat} {cs ds : List Code}
    (h : GuessFor w pos (cs ++ ds)) : GuessFor w pos cs := by
  induction cs generalizing pos with
  | nil =>
    have := h.bound
    simp only [List.nil_append] at this
    show pos ≤ w.length
    omega
  | cons c cs ih =>
    cases c with
    | literal b => exact ⟨h.1, ih h.2⟩
    | reference r => exact ⟨h.1, ih h.2⟩

/-- Such codes expand to the bytes of the window. -/
theorem GuessFor.expand {w : List UInt8} {pos : Nat} {cs : List Code} (h : GuessFor w pos cs) :
    lzExpand 32768 (w.take pos) cs =
      some ((w.drop pos).take (cs.map Code.emittedBytes).sum) := by
  induction cs generalizing pos with
  | nil => simp [lzExpand]
  | cons c cs ih =>
    have step : ∀ n, pos + n ≤ w.length → w.take pos ++ (w.drop pos).take n = w.take (pos + n) := by
      intro n _
      rw [List.take_add]
    have step2 : ∀ n m : Nat, (w.drop pos).take n ++ (w.drop (pos + n)).take m =
        (w.drop pos).take (n + m) := by
      intro n m
      rw [List.take_add, List.drop_drop]
    cases c with
    | literal b =>
      have hb := lt_of_getElem? h.1
      have e : [b] = (w.drop pos).take 1 := by
        have : w[pos] = b := by have := h.1; rw [List.getElem?_eq_getElem hb] at this; simpa using this
        rw [List.drop_eq_getElem_cons hb, this]
        rfl
      rw [lzExpand, lzCode]
      dsimp only
      rw [e, step 1 (by omega), ih h.2]
      dsimp only
      rw [step2, List.map_cons, List.sum_cons]
      rfl
    | reference r =>
      have hm := h.1
      have hl : (w.take pos).length = pos := by
        rw [List.length_take]; have := hm.le; omega
      rw [lzExpand, lzCode, if_pos ⟨hm.dist_pos, by
        rw [hl]; have := hm.dist_le; have := hm.dist_lt; omega⟩]
      dsimp only
      rw [AllRefs.lzCopy_match hm.dist_pos (by have := hm.dist_lt; omega) hm.matchLen,
        step _ hm.le, ih h.2]
      dsimp only
      rw [step2, List.map_cons, List.sum_cons]
      rfl

/-- A search function that is right about the window `w`. -/
def GoodLooker (w : List UInt8) (l : Looker) : Prop :=
  ∀ pos other, pos < w.length → ∃ b ro, w[pos]? = some b ∧ l pos other = .ok (b, ro) ∧
    ∀ r, ro = some r → AllRefs.IsMatch w pos r

theorem Ref.run_le (r : Ref) : r.run ≤ 258 := by
  have := UInt8.toNat_lt r.runMinus3
  unfold Ref.run
  omega

theorem Ref.three_le_run (r : Ref) : 3 ≤ r.run := by
  unfold Ref.run
  omega

namespace Lookahead

theorem GuessFor.lit {w : List UInt8} {pos : Nat} {b : UInt8} (h : w[pos]? = some b) :
    GuessFor w pos [.literal b] := ⟨h, lt_of_getElem? h⟩

theorem GuessFor.ref {w : List UInt8} {pos : Nat} {r : Ref} (h : AllRefs.IsMatch w pos r) :
    GuessFor w pos [.reference r] := ⟨h, h.le⟩

theorem runGreedy_ok {w : List UInt8} {l : Looker} (hl : GoodLooker w l) {pos : Nat}
    (hp : pos < w.length) : ∃ cs, runGreedy l pos = .ok cs ∧ cs ≠ [] ∧ GuessFor w pos cs := by
  obtain ⟨b, ro, h1, h2, h3⟩ := hl pos none hp
  rw [runGreedy, Looker.best, h2, Ex.ok_bind]
  cases ro with
  | none => exact ⟨_, rfl, by simp, GuessFor.lit h1⟩
  | some r => exact ⟨_, rfl, by simp, GuessFor.ref (h3 r rfl)⟩

theorem gzipLoop_ok {w : List UInt8} {l : Looker} (hl : GoodLooker w l) (fuel pos : Nat) (b : UInt8)
    (r : Ref) (ret : List Code) (hb : w[pos]? = some b) (hr : AllRefs.IsMatch w pos r)
    (hf : 259 ≤ fuel + r.run) :
    ∃ cs, gzipLoop l fuel pos b r ret = .ok (ret ++ cs) ∧ cs ≠ [] ∧ GuessFor w pos cs := by
  induction fuel generalizing pos b r ret with
  | zero => have := r.run_le; omega
  | succ fuel ih =>
    have hlt : pos + 1 < w.length := by have := hr.le; have := r.three_le_run; omega
    obtain ⟨b', ro, h1, h2, h3⟩ := hl (pos + 1) (some r.run) hlt
    rw [gzipLoop]
    rw [h2, Ex.ok_bind]
    cases ro with
    | none => exact ⟨_, rfl, by simp, GuessFor.ref hr⟩
    | some new =>
      dsimp only
      by_cases hn : new.run > r.run
      · rw [if_pos hn]
        obtain ⟨cs, e, _, g⟩ := ih (pos + 1) b' new (ret ++ [.literal b]) h1 (h3 new rfl) (by omega)
        exact ⟨.literal b :: cs, by rw [e]; simp, by simp, hb, g⟩
      · rw [if_neg hn]
        exact ⟨_, rfl, by simp, GuessFor.ref hr⟩

theorem runGzip_ok {w : List UInt8} {l : Looker} (hl : GoodLooker w l) {pos : Nat}
    (hp : pos < w.length) : ∃ cs, runGzip l pos = .ok cs ∧ cs ≠ [] ∧ GuessFor w pos cs := by
  obtain ⟨b, ro, h1, h2, h3⟩ := hl pos none hp
  rw [runGzip, Looker.best, h2, Ex.ok_bind]
  cases ro with
  | none => exact ⟨_, rfl, by simp, GuessFor.lit h1⟩
  | some r =>
    obtain ⟨cs, e, g⟩ := gzipLoop_ok hl 259 pos b r [] h1 (h3 r rfl) (by omega)
    exact ⟨cs, e, g⟩

theorem runThreeZip_ok {w : List UInt8} {l : Looker} (hl : GoodLooker w l) {pos : Nat}
    (hp : pos < w.length) : ∃ cs, runThreeZip l pos = .ok cs ∧ cs ≠ [] ∧ GuessFor w pos cs := by
  obtain ⟨b, ro, h1, h2, h3⟩ := hl pos none hp
  rw [runThreeZip, Looker.best, h2, Ex.ok_bind]
  cases ro with
  | none => exact ⟨_, rfl, by simp, GuessFor.lit h1⟩
  | some r =>
    dsimp only
    have hr := h3 r rfl
    by_cases hrun : r.run > 3
    · rw [if_pos hrun]
      exact ⟨_, rfl, by simp, GuessFor.ref hr⟩
    · rw [if_neg hrun]
      have h3r : r.run = 3 := by have := r.three_le_run; omega
      rw [h3r, assert_of (by rfl), Ex.ok_bind]
      have hle := hr.le
      obtain ⟨b2, ro2, s1, s2, s3⟩ := hl (pos + 1) none (by omega)
      obtain ⟨b3, ro3, t1, t2, t3⟩ := hl (pos + 2) none (by omega)
      rw [Looker.best, s2, Ex.ok_bind]
      dsimp only
      have g2 : ∀ r2, ro2.filter (fun x => decide (x.run > 3)) = some r2 →
          GuessFor w pos [.literal b, .reference r2] := by
        intro r2 h
        have := s3 r2 (Option.filter_eq_some_iff.1 h).1
        exact ⟨h1, GuessFor.ref this⟩
      have g3 : ∀ r3, ro3.filter (fun x => decide (x.run > 4)) = some r3 →
          GuessFor w pos [.literal b, .literal b2, .reference r3] := by
        intro r3 h
        have := t3 r3 (Option.filter_eq_some_iff.1 h).1
        exact ⟨h1, s1, GuessFor.ref this⟩
      cases e2 : ro2.filter (fun x => decide (x.run > 3)) with
      | none =>
        rw [if_neg (by simp), Looker.best, t2, Ex.ok_bind]
        dsimp only
        cases e3 : ro3.filter (fun x => decide (x.run > 4)) with
        | none => exact ⟨_, rfl, by simp, GuessFor.ref hr⟩
        | some r3 => exact ⟨_, rfl, by simp, g3 r3 e3⟩
      | some r2 =>
        by_cases h258 : r2.run = 258
        · rw [if_pos (by simp [h258])]
          exact ⟨_, rfl, by simp, g2 r2 e2⟩
        · rw [if_neg (by simp [h258]), Looker.best, t2, Ex.ok_bind]
          dsimp only
          cases e3 : ro3.filter (fun x => decide (x.run > 4)) with
          | none => exact ⟨_, rfl, by simp, g2 r2 e2⟩
          | some r3 =>
            dsimp only
            by_cases hc : r3.run > r2.run
            · rw [if_pos hc]
              exact ⟨_, rfl, by simp, g3 r3 e3⟩
            · rw [if_neg hc]
              exact ⟨_, rfl, by simp, g2 r2 e2⟩

theorem lookahead_ok {w : List UInt8} {l : Looker} (hl : GoodLooker w l) (la : Lookahead) {pos : Nat}
    (hp : pos < w.length) : ∃ cs, la.lookahead l pos = .ok cs ∧ cs ≠ [] ∧ GuessFor w pos cs := by
  cases la with
  | greedy => exact runGreedy_ok hl hp
  | gzip => exact runGzip_ok hl hp
  | threeZip => exact runThreeZip_ok hl hp

end Lookahead

theorem Picker.pick_mem {p : Picker} {rs : List Ref} {cap : Nat} {r : Ref}
    (h : p.pick rs cap = some r) : r ∈ rs := by
  have key : ∀ {r}, Picker.longest.pick rs cap = some r → r ∈ rs := by
    intro r h
    rcases C51_pick_longest rs cap with ⟨_, h2⟩ | ⟨r', l₁, l₂, h2, h3, _⟩
    · rw [h2] at h; cases h
    · rw [h2] at h; cases h; rw [h3]; simp
  cases p with
  | longest => exact key h
  | dropFarThrees => exact key ((C52_far_threes rs cap r).1 h).1

namespace Technique

theorem search_ok {t : Technique} (hb : t.allRefs.Built) (s : Scanner) (b : UInt8) (pos limit : Nat) :
    ∃ ro, t.search s b pos limit = .ok (b, ro) ∧
      ∀ r, ro = some r → AllRefs.IsMatch t.allRefs.win pos r := by
  have := AllRefs.at_ok hb pos s.obscured
  rw [search]
  cases hk : threeAt t.allRefs.win pos with
  | none =>
    rw [hk] at this
    rw [this, Ex.ok_bind]
    exact ⟨none, rfl, by simp⟩
  | some k =>
    rw [hk] at this
    obtain ⟨rs, h1, h2, _⟩ := this
    rw [h1, Ex.ok_bind]
    exact ⟨_, rfl, fun r hr => h2 r (List.mem_of_mem_take (Picker.pick_mem hr))⟩

theorem looker_ok {t : Technique} (hb : t.allRefs.Built) (s : Scanner) :
    GoodLooker t.allRefs.win (t.bestCandidateBetterThan s) := by
  intro pos other hp
  rw [bestCandidateBetterThan, AllRefs.get_ok hp, Ex.ok_bind]
  refine ⟨t.allRefs.win[pos], ?_⟩
  rw [List.getElem?_eq_getElem hp]
  have key : ∀ limit, ∃ ro, some t.allRefs.win[pos] = some t.allRefs.win[pos] ∧
      t.search s t.allRefs.win[pos] pos limit = .ok (t.allRefs.win[pos], ro) ∧
      ∀ r, ro = some r → AllRefs.IsMatch t.allRefs.win pos r := by
    intro limit
    obtain ⟨ro, h1, h2⟩ := search_ok hb s t.allRefs.win[pos] pos limit
    exact ⟨ro, rfl, h1, h2⟩
  dsimp only
  cases other with
  | none => exact key _
  | some run =>
    dsimp only
    cases t.config.wams.lookahead with
    | none => exact key _
    | some la =>
      dsimp only
      by_cases h : la.abortAboveLength > run
      · rw [if_pos h]; exact ⟨none, rfl, rfl, by simp⟩
      · rw [if_neg h]; exact key _

theorem codes_ok {t : Technique} (hb : t.allRefs.Built) (s : Scanner)
    (hp : s.pos < t.allRefs.win.length) :
    ∃ cs, t.codes s = .ok cs ∧ cs ≠ [] ∧ GuessFor t.allRefs.win s.pos cs :=
  Lookahead.lookahead_ok (looker_ok hb s) _ hp

end Technique

end Rezip
