import Verif.Props.Own

/-!
# C92: how much preroll a trace needs
-/

namespace Rezip

open Rezip.Spec

/-! ### The reference guesser with more bytes in front -/

theorem Spec.three_shift (x w : List UInt8) (j : Nat) : three (x ++ w) (x.length + j) = three w j := by
  unfold three
  rw [List.drop_append, List.drop_eq_nil_of_le (by omega), List.nil_append, Nat.add_sub_cancel_left]

theorem Spec.sameHash_shift (x w : List UInt8) (i j : Nat) :
    sameHash (x ++ w) (x.length + i) (x.length + j) = sameHash w i j := by
  unfold sameHash
  rw [three_shift, three_shift]

/-- Runs moved up. -/
def shiftRuns (k : Nat) (runs : List (Nat × Nat)) : List (Nat × Nat) := runs.map fun p => (k + p.1, p.2)

theorem shiftRuns_nil (k : Nat) : shiftRuns k [] = [] := rfl

theorem shiftRuns_one (k p n : Nat) : shiftRuns k ([] ++ [(p, n)]) = [] ++ [(k + p, n)] := rfl

theorem shiftRuns_ite (k p n : Nat) (c : Bool) :
    shiftRuns k (if c = true then [] ++ [(p, n)] else []) = if c = true then [] ++ [(k + p, n)] else [] := by
  cases c <;> rfl

theorem Spec.hidden_shift (k : Nat) (runs : List (Nat × Nat)) (j : Nat) :
    hidden (shiftRuns k runs) (k + j) = hidden runs j := by
  unfold hidden shiftRuns
  rw [List.any_map]
  congr 1
  funext p
  show (decide (k + p.1 < k + j) && decide (k + j < k + p.1 + p.2)) = _
  rw [Bool.eq_iff_iff]
  simp only [Bool.and_eq_true, decide_eq_true_eq]
  omega

theorem take_append_filter {α : Type} (p : α → Bool) (a b : List α) (n : Nat)
    (hb : ∀ y ∈ b, p y = false) : ((a ++ b).take n).filter p = (a.take n).filter p := by
  have : (b.take (n - a.length)).filter p = [] := by
    rw [List.filter_eq_nil_iff]
    intro y hy
    rw [hb y (List.mem_of_mem_take hy)]
    simp
  rw [List.take_append, List.filter_append, this, List.append_nil]

/-- The candidates are the same if the bytes left out are out of reach. -/
theorem Spec.candidates_shift (x w : List UInt8) (limit pos : Nat) (runs : List (Nat × Nat))
    (hp : 32768 < pos) :
    candidates (x ++ w) limit (x.length + pos) (shiftRuns x.length runs) = candidates w limit pos runs := by
  have key : (searched (x ++ w) limit (x.length + pos) (shiftRuns x.length runs)).filter
        (fun j => decide (x.length + pos - j ≤ 32768) && three (x ++ w) j == three (x ++ w) (x.length + pos)) =
      ((searched w limit pos runs).filter
        (fun j => decide (pos - j ≤ 32768) && three w j == three w pos)).map (x.length + ·) := by
    unfold searched
    obtain ⟨q, rfl⟩ : ∃ q, pos = 1 + q := ⟨pos - 1, by omega⟩
    have hr : (List.range (x.length + (1 + q))).reverse =
        ((List.range q).reverse.map (fun j => x.length + (1 + j))) ++ (List.range (x.length + 1)).reverse := by
      rw [← Nat.add_assoc, List.range_add, List.reverse_append, ← List.map_reverse]
      congr 2
      funext j
      omega
    have hr' : (List.range (1 + q)).reverse = ((List.range q).reverse.map (fun j => 1 + j)) ++ [0] := by
      rw [List.range_add, List.reverse_append, ← List.map_reverse]
      rfl
    rw [hr, hr', List.filter_append, List.filter_append, take_append_filter, take_append_filter]
    · rw [List.filter_map, List.filter_map, ← List.map_take, ← List.map_take, List.filter_map, List.filter_map,
        List.map_map]
      have e1 : ((fun j => decide (0 < j) && sameHash (x ++ w) j (x.length + (1 + q)) &&
          !hidden (shiftRuns x.length runs) j) ∘ fun j => x.length + (1 + j)) =
          ((fun j => decide (0 < j) && sameHash w j (1 + q) && !hidden runs j) ∘ fun j => 1 + j) := by
        funext j
        show (decide (0 < x.length + (1 + j)) && sameHash (x ++ w) (x.length + (1 + j)) (x.length + (1 + q)) &&
          !hidden (shiftRuns x.length runs) (x.length + (1 + j))) = _
        rw [sameHash_shift, hidden_shift, decide_eq_true (by omega)]
        show _ = (decide (0 < 1 + j) && _ && _)
        rw [decide_eq_true (by omega)]
      have e2 : ((fun j => decide (x.length + (1 + q) - j ≤ 32768) &&
          three (x ++ w) j == three (x ++ w) (x.length + (1 + q))) ∘ fun j => x.length + (1 + j)) =
          ((fun j => decide (1 + q - j ≤ 32768) && three w j == three w (1 + q)) ∘ fun j => 1 + j) := by
        funext j
        show (decide (x.length + (1 + q) - (x.length + (1 + j)) ≤ 32768) &&
          three (x ++ w) (x.length + (1 + j)) == three (x ++ w) (x.length + (1 + q))) = _
        rw [three_shift, three_shift, Nat.add_sub_add_left]
        rfl
      rw [e1, e2]
      rfl
    · intro y hy
      have := (List.mem_filter.1 hy).1
      rw [List.mem_singleton.1 this]
      rw [decide_eq_false (by omega)]
      rfl
    · intro y hy
      have := List.mem_range.1 (List.mem_reverse.1 (List.mem_filter.1 hy).1)
      rw [decide_eq_false (by omega)]
      rfl
  unfold candidates
  rw [key, List.map_map]
  apply List.map_congr_left
  intro j hj
  show (x.length + pos - (x.length + j), _) = _
  rw [Nat.add_sub_add_left]
  rw [List.drop_append, List.drop_append, List.drop_eq_nil_of_le (show x.length ≤ x.length + pos by omega),
    List.drop_eq_nil_of_le (show x.length ≤ x.length + j by omega)]
  simp

theorem Spec.guess_shift (st : Settings) (search : Nat) (x w : List UInt8) (pos : Nat) (runs : List (Nat × Nat))
    (hp : 32768 < pos) :
    guess st search (x ++ w) (x.length + pos) (shiftRuns x.length runs) = guess st search w pos runs := by
  unfold guess
  rw [candidates_shift x w search pos runs hp]

theorem Spec.says_shift (x w : List UInt8) (pos : Nat) (g : Option (Nat × Nat)) (c : Code) :
    says (x ++ w) (x.length + pos) g c = says w pos g c := by
  cases c with
  | reference r => rfl
  | literal b =>
    rw [says, says, List.getElem?_append_right (by omega), Nat.add_sub_cancel_left]

theorem Spec.refTrace_shift (st : Settings) (search : Nat) (x w : List UInt8) (codes : List Code) (pos : Nat)
    (runs : List (Nat × Nat)) (hp : 32768 < pos) :
    refTrace st search (x ++ w) (x.length + pos) (shiftRuns x.length runs) codes =
      refTrace st search w pos runs codes := by
  induction codes generalizing pos runs with
  | nil => rfl
  | cons c cs ih =>
    cases c with
    | literal b =>
      rw [refTrace, refTrace, guess_shift _ _ _ _ _ _ hp, says_shift, Nat.add_assoc, ih _ _ (by omega)]
    | reference r =>
      rw [refTrace, refTrace, guess_shift _ _ _ _ _ _ hp, says_shift, Nat.add_assoc, ← ih _ _ (by omega)]
      congr 2
      cases st.insert.any fun l => decide (l < r.run)
      · rfl
      · show _ = shiftRuns _ (runs ++ [(pos, r.run)])
        unfold shiftRuns
        rw [List.map_append]
        rfl

/-! ### The guesser itself -/

theorem Ref.eq_of {r s : Ref} (hd : r.dist.toNat = s.dist.toNat) (hr : r.run = s.run) : r = s := by
  obtain ⟨d, n⟩ := r
  obtain ⟨e, m⟩ := s
  have h1 : d = e := UInt16.toNat_inj.1 hd
  have h2 : n = m := by
    apply UInt8.toNat_inj.1
    unfold Ref.run at hr
    exact Nat.add_right_cancel hr
  rw [h1, h2]

theorem refs_eq_of {rs ss : List Ref}
    (h : rs.map (fun r => (r.dist.toNat, r.run)) = ss.map (fun r => (r.dist.toNat, r.run))) : rs = ss := by
  refine List.map_inj_right ?_ |>.1 h
  intro a b hab
  exact Ref.eq_of (congrArg Prod.fst hab) (congrArg Prod.snd hab)

theorem lookahead_shift (la : Lookahead) (l l' : Looker) (k pos : Nat)
    (h : ∀ q, pos ≤ q → ∀ o, l (k + q) o = l' q o) : la.lookahead l (k + pos) = la.lookahead l' pos := by
  have hg : ∀ fuel q b r ret, pos ≤ q →
      Lookahead.gzipLoop l fuel (k + q) b r ret = Lookahead.gzipLoop l' fuel q b r ret := by
    intro fuel
    induction fuel with
    | zero => intros; rfl
    | succ n ih =>
      intro q b r ret hq
      rw [Lookahead.gzipLoop, Lookahead.gzipLoop]
      rw [Nat.add_assoc, h (q + 1) (by omega)]
      congr 1
      funext p
      obtain ⟨b', o⟩ := p
      cases o with
      | none => rfl
      | some new =>
        dsimp only
        rw [ih _ _ _ _ (by omega)]
  cases la with
  | greedy =>
    show Lookahead.runGreedy _ _ = Lookahead.runGreedy _ _
    unfold Lookahead.runGreedy Looker.best
    rw [h pos (Nat.le_refl _)]
  | gzip =>
    show Lookahead.runGzip _ _ = Lookahead.runGzip _ _
    unfold Lookahead.runGzip Looker.best
    rw [h pos (Nat.le_refl _)]
    congr 1
    funext p
    obtain ⟨b', o⟩ := p
    cases o with
    | none => rfl
    | some new => exact hg _ _ _ _ _ (Nat.le_refl _)
  | threeZip =>
    show Lookahead.runThreeZip _ _ = Lookahead.runThreeZip _ _
    unfold Lookahead.runThreeZip Looker.best
    rw [h pos (Nat.le_refl _), Nat.add_assoc, h (pos + 1) (by omega), Nat.add_assoc, h (pos + 2) (by omega)]

/-- The scanner moved up. -/
def shiftScanner (k : Nat) (s : Scanner) : Scanner := ⟨shiftRuns k s.obscured, k + s.pos⟩

theorem at_shift {x y data : List UInt8} {limit : Nat} {a a' : AllRefs}
    (ha : AllRefs.withSixteen (x ++ y) data limit = .ok a) (ha' : AllRefs.withSixteen y data limit = .ok a')
    (pos : Nat) (runs : List (Nat × Nat)) (hp : 32768 < pos) :
    a.at_ (x.length + pos) (shiftRuns x.length runs) = a'.at_ pos runs := by
  obtain ⟨b, hb, h1⟩ := C68_candidates (x ++ y) data limit (x.length + pos) (shiftRuns x.length runs)
  obtain ⟨b', hb', h2⟩ := C68_candidates y data limit pos runs
  obtain rfl : a = b := Except.ok.inj (ha.symm.trans hb)
  obtain rfl : a' = b' := Except.ok.inj (ha'.symm.trans hb')
  rw [List.append_assoc, three_shift, candidates_shift _ _ _ _ _ hp] at h1
  rcases h1 with ⟨n1, e1⟩ | ⟨n1, rs, e1, m1⟩ <;> rcases h2 with ⟨n2, e2⟩ | ⟨n2, ss, e2, m2⟩
  · rw [e1, e2]
  · exact absurd n1 n2
  · exact absurd n2 n1
  · rw [e1, e2, refs_eq_of (m1.trans m2.symm)]

theorem codes_shift (config : Config) {x y data : List UInt8} {limit : Nat} {a a' : AllRefs}
    (ha : AllRefs.withSixteen (x ++ y) data limit = .ok a) (ha' : AllRefs.withSixteen y data limit = .ok a')
    (s : Scanner) (hp : 32768 < s.pos) :
    (Technique.mk config a).codes (shiftScanner x.length s) = (Technique.mk config a').codes s := by
  refine lookahead_shift _ _ _ _ _ ?_
  intro q hq o
  obtain ⟨b, hb, p1, p2, _, _⟩ := AllRefs.withSixteen_ok (x ++ y) data limit
  obtain ⟨b', hb', p1', p2', _, _⟩ := AllRefs.withSixteen_ok y data limit
  obtain rfl : a = b := Except.ok.inj (ha.symm.trans hb)
  obtain rfl : a' = b' := Except.ok.inj (ha'.symm.trans hb')
  have hget : a.get (x.length + q) = a'.get q := by
    rw [AllRefs.get_eq, AllRefs.get_eq]
    unfold index AllRefs.win
    rw [p1, p2, p1', p2', List.append_assoc, List.getElem?_append_right (by omega), Nat.add_sub_cancel_left]
  have hs : ∀ lit lim, (Technique.mk config a).search (shiftScanner x.length s) lit (x.length + q) lim =
      (Technique.mk config a').search s lit q lim := by
    intro lit lim
    unfold Technique.search
    dsimp only
    rw [show (shiftScanner x.length s).obscured = shiftRuns x.length s.obscured from rfl,
      at_shift ha ha' q _ (by omega)]
  unfold Technique.bestCandidateBetterThan
  dsimp only
  rw [hget]
  congr 1
  funext lit
  simp only [hs]

theorem feedback_shift (config : Config) (a a' : AllRefs) (k : Nat) (s : Scanner) (c : Code) :
    (Technique.mk config a).feedback (shiftScanner k s) c = shiftScanner k ((Technique.mk config a').feedback s c) := by
  unfold Technique.feedback shiftScanner
  dsimp only
  cases config.wams.insertOnlyBelowLength with
  | none => simp [Nat.add_assoc]
  | some l =>
    cases c with
    | literal b => simp [Nat.add_assoc]
    | reference r =>
      dsimp only
      by_cases hl : r.run ≤ l
      · rw [if_pos hl, if_pos hl]; simp [Nat.add_assoc]
      · rw [if_neg hl, if_neg hl]; simp [Nat.add_assoc, shiftRuns]

theorem feedAll_shift (config : Config) (a a' : AllRefs) (k : Nat) (s : Scanner) (cs : List Code) :
    Tracing.feedAll (Technique.mk config a) (shiftScanner k s) cs =
      shiftScanner k (Tracing.feedAll (Technique.mk config a') s cs) := by
  induction cs generalizing s with
  | nil => rfl
  | cons c cs ih => rw [Tracing.feedAll, Tracing.feedAll, feedback_shift config a a', ih]

theorem traceLoop_shift (config : Config) {x y data : List UInt8} {limit : Nat} {a a' : AllRefs}
    (ha : AllRefs.withSixteen (x ++ y) data limit = .ok a) (ha' : AllRefs.withSixteen y data limit = .ok a')
    (fuel m : Nat) (s : Scanner) (codes : List Code) (hp : 32768 < s.pos) (hf0 : 0 < fuel)
    (hf : (y ++ data).length < fuel + s.pos) :
    Tracing.traceLoop (Technique.mk config a) (fuel + m) (shiftScanner x.length s) codes =
      Tracing.traceLoop (Technique.mk config a') fuel s codes := by
  obtain ⟨b, hb, p1, p2, _, hbuilt⟩ := AllRefs.withSixteen_ok (x ++ y) data limit
  obtain ⟨b', hb', p1', p2', _, hbuilt'⟩ := AllRefs.withSixteen_ok y data limit
  obtain rfl : a = b := Except.ok.inj (ha.symm.trans hb)
  obtain rfl : a' = b' := Except.ok.inj (ha'.symm.trans hb')
  have w1 : a.win.length = x.length + (y ++ data).length := by
    unfold AllRefs.win; rw [p1, p2]; simp
  have w2 : a'.win.length = (y ++ data).length := by unfold AllRefs.win; rw [p1', p2']
  induction fuel generalizing s codes with
  | zero => omega
  | succ n ih =>
    rw [show n + 1 + m = (n + m) + 1 by omega, Tracing.traceLoop, Tracing.traceLoop]
    have hmore : (Technique.mk config a).moreData (shiftScanner x.length s) = (Technique.mk config a').moreData s := by
      rw [Tracing.moreData_iff, Tracing.moreData_iff]
      show decide (x.length + s.pos < a.win.length) = decide (s.pos < a'.win.length)
      rw [w1, w2, Bool.eq_iff_iff]
      simp only [decide_eq_true_eq]
      omega
    rw [hmore, codes_shift config ha ha' s hp]
    by_cases hd : (Technique.mk config a').moreData s = true
    · rw [if_pos hd, if_pos hd]
      rw [Tracing.moreData_iff, decide_eq_true_eq] at hd
      obtain ⟨gs, hgs, hne, _⟩ := Technique.codes_ok (t := ⟨config, a'⟩) hbuilt' s hd
      have hd' : s.pos < (y ++ data).length := by rw [← w2]; exact hd
      rw [hgs, Ex.ok_bind, Ex.ok_bind, assert_of (by simpa using hne), Ex.ok_bind, Ex.ok_bind]
      obtain ⟨mt, gs', cs', e1, e2, e3⟩ := Tracing.sharedPrefix_spec gs codes
      rw [e1]
      dsimp only
      rw [feedAll_shift config a a']
      have hfp := Tracing.feedAll_pos (Technique.mk config a') s mt
      by_cases hl : mt.length = gs.length
      · rw [if_pos hl, if_pos hl]
        have : mt ≠ [] := by
          intro h0
          rw [h0] at hl
          exact hne (List.length_eq_zero_iff.1 hl.symm)
        have hsum : 0 < (mt.map Code.emittedBytes).sum := by
          have := Tracing.length_le_sum mt
          have := List.length_pos_iff.2 ‹mt ≠ []›
          omega
        rw [ih _ _ (by omega) (by omega) (by omega)]
      · rw [if_neg hl, if_neg hl]
        cases cs' with
        | nil => rfl
        | cons c cs' =>
          dsimp only
          have := Tracing.feedback_pos (Technique.mk config a') (Tracing.feedAll (Technique.mk config a') s mt) c
          have := c.emittedBytes_pos
          rw [feedback_shift config a a', ih _ _ (by omega) (by omega) (by omega)]
    · rw [if_neg hd, if_neg hd]

/-- C92. The last 32769 bytes before the data are enough: for every configuration and search limit and any
codes at all, adding more bytes in front of a preroll that long changes nothing about a trace, be it a
result or a panic. -/
theorem C92_enough (config : Config) (x y data : List UInt8) (limit : Nat) (codes : List Code)
    (hy : 32769 ≤ y.length) :
    ∃ a b, AllRefs.withSixteen (x ++ y) data limit = .ok a ∧ AllRefs.withSixteen y data limit = .ok b ∧
      Tracing.trace codes ⟨config, a⟩ = Tracing.trace codes ⟨config, b⟩ := by
  obtain ⟨a, ha, p1, p2, _, _⟩ := AllRefs.withSixteen_ok (x ++ y) data limit
  obtain ⟨a', ha', p1', p2', _, _⟩ := AllRefs.withSixteen_ok y data limit
  refine ⟨a, a', ha, ha', ?_⟩
  have e : (Technique.mk config a).scanner = shiftScanner x.length (Technique.mk config a').scanner := by
    unfold Technique.scanner shiftScanner shiftRuns
    dsimp only
    rw [p1, p1', List.length_append]
    rfl
  have l1 : (Technique.mk config a).dataLen = x.length + (y ++ data).length := by
    rw [Technique.dataLen, AllRefs.dataLen_eq]
    unfold AllRefs.win
    dsimp only
    rw [p1, p2]; simp
  have l2 : (Technique.mk config a').dataLen = (y ++ data).length := by
    rw [Technique.dataLen, AllRefs.dataLen_eq]
    unfold AllRefs.win
    dsimp only
    rw [p1', p2']
  have l3 : (Technique.mk config a').scanner.pos = y.length := by
    show a'.preroll.length = _
    rw [p1']
  rw [Tracing.trace, Tracing.trace, e, l1, l2,
    show x.length + (y ++ data).length + 1 = ((y ++ data).length + 1) + x.length by omega]
  exact traceLoop_shift config ha ha' _ _ _ _ (by omega) (by omega) (by omega)

/-- A preroll of 40000 bytes is enough, whatever comes before it. -/
example (config : Config) (x data : List UInt8) (limit : Nat) (codes : List Code) :
    ∃ a b, AllRefs.withSixteen (x ++ List.replicate 40000 7) data limit = .ok a ∧
      AllRefs.withSixteen (List.replicate 40000 7) data limit = .ok b ∧
      Tracing.trace codes ⟨config, a⟩ = Tracing.trace codes ⟨config, b⟩ :=
  C92_enough config x _ data limit codes (by rw [List.length_replicate]; omega)

theorem window_short {h : List UInt8} (hl : h.length ≤ 32768) : window h = h := by
  unfold window
  rw [Nat.sub_eq_zero_of_le hl, List.drop_zero]

theorem window_split {h : List UInt8} (hl : 32768 ≤ h.length) :
    ∃ x y, h = x ++ y ∧ window h = y ∧ 32768 ≤ y.length := by
  refine ⟨h.take (h.length - 32768), h.drop (h.length - 32768), (List.take_append_drop _ _).symm, rfl, ?_⟩
  rw [List.length_drop]
  omega

theorem refTrace_tail (st : Settings) (limit : Nat) (x y data : List UInt8) (codes : List Code)
    (hy : 32768 ≤ y.length) :
    (refTrace st limit (x ++ y ++ data) (x ++ y).length [] codes).tail =
      (refTrace st limit (y ++ data) y.length [] codes).tail := by
  cases codes with
  | nil => rfl
  | cons c cs =>
    cases c with
    | literal b =>
      rw [refTrace, refTrace, List.tail_cons, List.tail_cons, List.append_assoc, List.length_append,
        Nat.add_assoc, ← refTrace_shift st limit x (y ++ data) cs (y.length + 1) [] (by omega), shiftRuns_nil]
    | reference r =>
      have := r.three_le_run
      rw [refTrace, refTrace, List.tail_cons, List.tail_cons, List.append_assoc, List.length_append,
        Nat.add_assoc, ← refTrace_shift st limit x (y ++ data) cs (y.length + r.run) _ (by omega), shiftRuns_ite]

/-- C92. The 32768 bytes which the window buffer keeps are enough for all of a gzip preset's trace but its
first entry; and for that as well if there were no more bytes. -/
theorem C92_window (level : Nat) (h1 : 1 ≤ level) (h9 : level ≤ 9) (h data : List UInt8) (limit : Nat)
    (codes : List Code) (hs : (codes.map Code.emittedBytes).sum = data.length) :
    ∃ config a b tr tr', Config.gzip level = .ok config ∧ AllRefs.withSixteen h data limit = .ok a ∧
      AllRefs.withSixteen (window h) data limit = .ok b ∧ Tracing.trace codes ⟨config, a⟩ = .ok tr ∧
      Tracing.trace codes ⟨config, b⟩ = .ok tr' ∧ tr.tail = tr'.tail ∧ (h.length ≤ 32768 → tr = tr') := by
  obtain ⟨st, hst⟩ := gzipSettings_some ⟨h1, h9⟩
  obtain ⟨config, a, hc, ha, e1⟩ := C70_trace level st hst h data limit codes hs
  obtain ⟨config', b, hc', hb, e2⟩ := C70_trace level st hst (window h) data limit codes hs
  obtain rfl : config = config' := Except.ok.inj (hc.symm.trans hc')
  refine ⟨config, a, b, _, _, hc, ha, hb, e1, e2, ?_, ?_⟩
  · by_cases hl : h.length ≤ 32768
    · rw [window_short hl]
    · obtain ⟨x, y, e, ew, hy⟩ := window_split (show 32768 ≤ h.length by omega)
      rw [ew, e]
      exact refTrace_tail st limit x y data codes hy
  · intro hl
    rw [window_short hl]

/-- Two codes for five bytes after a long history: the second entry is the same either way. -/
example (h : List UInt8) : ∃ config a b tr tr', Config.gzip 6 = .ok config ∧
    AllRefs.withSixteen h [7, 1, 2, 3, 0] 65535 = .ok a ∧
    AllRefs.withSixteen (window h) [7, 1, 2, 3, 0] 65535 = .ok b ∧
    Tracing.trace [.literal 7, .reference ⟨32768, 1⟩] ⟨config, a⟩ = .ok tr ∧
    Tracing.trace [.literal 7, .reference ⟨32768, 1⟩] ⟨config, b⟩ = .ok tr' ∧ tr.tail = tr'.tail ∧
    (h.length ≤ 32768 → tr = tr') :=
  C92_window 6 (by decide) (by decide) h _ _ _ rfl

/-! ### The window buffer keeps one byte too few -/

/-- Bytes with 1, 2, 3 right after the first one and zeros from there on. -/
def history (n : Nat) : List UInt8 := 0 :: 1 :: 2 :: 3 :: List.replicate n 0

theorem filter_only_one (p : Nat → Bool) (n : Nat) (hn : 2 ≤ n) (h0 : p 0 = false) (h1 : p 1 = true)
    (h2 : ∀ j, 2 ≤ j → j < n → p j = false) : (List.range n).reverse.filter p = [1] := by
  obtain ⟨m, rfl⟩ : ∃ m, n = 2 + m := ⟨n - 2, by omega⟩
  rw [List.range_add, List.reverse_append, List.filter_append, List.filter_eq_nil_iff.2]
  · rw [show (List.range 2).reverse = [1, 0] from rfl, List.filter_cons, if_pos h1, List.filter_cons, if_neg (by simp [h0])]
    rfl
  · intro j hj
    obtain ⟨i, hi, rfl⟩ := List.mem_map.1 (List.mem_reverse.1 hj)
    have := List.mem_range.1 hi
    rw [h2 _ (by omega) (by omega)]
    simp

theorem rest_get (n i : Nat) (hi : i < n + 2) :
    ∃ c, (List.replicate n (0 : UInt8) ++ [1, 2, 3, 0])[i]? = some c ∧ c.toNat % 32 ≠ 3 := by
  by_cases h : i < n
  · refine ⟨0, ?_, by decide⟩
    rw [List.getElem?_append_left (by simpa using h), List.getElem?_replicate, if_pos h]
  · rw [List.getElem?_append_right (by simp; omega), List.length_replicate]
    have : i - n = 0 ∨ i - n = 1 := by omega
    rcases this with e | e <;> rw [e]
    · exact ⟨1, rfl, by decide⟩
    · exact ⟨2, rfl, by decide⟩

theorem not_sameHash {w : List UInt8} {i j : Nat} {c : UInt8} (hj : three w j = some (1, 2, 3))
    (hc : w[i + 2]? = some c) (h : c.toNat % 32 ≠ 3) : sameHash w i j = false := by
  unfold sameHash
  rw [hj]
  cases ht : three w i with
  | none => rfl
  | some t =>
    obtain ⟨x, y, z⟩ := t
    have hz : z = c := by
      unfold three at ht
      have e : (w.drop i)[2]? = some c := by rw [List.getElem?_drop]; exact hc
      match hw : w.drop i, ht, e with
      | _ :: _ :: _ :: _, ht, e =>
        cases ht
        exact Option.some.inj e
    subst hz
    dsimp only
    rw [beq_eq_false_iff_ne]
    intro he
    have h1 := (hash_digits x y z).1
    have h2 := (hash_digits 1 2 3).1
    rw [he, h2] at h1
    exact h h1.symm

theorem history_drop (n : Nat) (l : List UInt8) : (history n ++ l).drop (n + 4) = l := by
  have : (history n).length = n + 4 := by simp [history]
  rw [← this, List.drop_left]

theorem history_candidates (n limit : Nat) (hn : 1 ≤ n) (hn2 : n + 3 ≤ 32768) (hl : 1 ≤ limit) :
    candidates (history n ++ [1, 2, 3, 0]) limit (n + 4) [] = [(n + 3, 4)] := by
  have h3 : three (history n ++ [1, 2, 3, 0]) (n + 4) = some (1, 2, 3) := by
    unfold three; rw [history_drop]
  have h31 : three (history n ++ [1, 2, 3, 0]) 1 = some (1, 2, 3) := rfl
  have hs : searched (history n ++ [1, 2, 3, 0]) limit (n + 4) [] = [1] := by
    unfold searched
    rw [filter_only_one _ _ (by omega)]
    · cases limit with
      | zero => omega
      | succ l => rw [List.take_succ_cons, List.take_nil]
    · rfl
    · unfold sameHash
      rw [h3, h31]
      simp [hidden]
    · intro j h2 hj
      obtain ⟨c, e1, e2⟩ := rest_get n (j - 2) (by omega)
      rw [not_sameHash h3 (c := c) _ e2]
      · simp
      · obtain ⟨i, rfl⟩ : ∃ i, j = i + 2 := ⟨j - 2, by omega⟩
        exact e1
  unfold candidates
  rw [hs, List.filter_cons, h3, h31, if_pos (by simp; omega), List.filter_nil, List.map_cons, List.map_nil,
    history_drop]
  obtain ⟨m, rfl⟩ : ∃ m, n = m + 1 := ⟨n - 1, by omega⟩
  rfl

theorem short_candidates (n limit : Nat) :
    candidates ((history n).tail ++ [1, 2, 3, 0]) limit (n + 3) [] = [] := by
  have h3 : three ((history n).tail ++ [1, 2, 3, 0]) (n + 3) = some (1, 2, 3) := by
    unfold three
    have : (history n).tail.length = n + 3 := by simp [history]
    rw [← this, List.drop_left]
  have hs : searched ((history n).tail ++ [1, 2, 3, 0]) limit (n + 3) [] = [] := by
    unfold searched
    rw [List.filter_eq_nil_iff.2, List.take_nil]
    intro j hj
    have hj := List.mem_range.1 (List.mem_reverse.1 hj)
    by_cases h0 : j = 0
    · simp [h0]
    · obtain ⟨i, rfl⟩ : ∃ i, j = i + 1 := ⟨j - 1, by omega⟩
      obtain ⟨c, e1, e2⟩ := rest_get n i (by omega)
      rw [not_sameHash h3 (c := c) e1 e2]
      simp
  unfold candidates
  rw [hs]
  rfl

/-- The copy of the four bytes. -/
def farCopy : Ref := ⟨32768, 1⟩

theorem lzCopy_step {h : List UInt8} {d k i : Nat} {b : UInt8} (hi : h.length = d + i) (hb : h[i]? = some b) :
    lzCopy h d (k + 1) = b :: lzCopy (h ++ [b]) d k := by
  rw [lzCopy]
  rw [hi, Nat.add_sub_cancel_left, List.getD_eq_getElem?_getD, hb]
  rfl

theorem history_copy (m : Nat) : lzCopy (history (m + 1)) (m + 4) 4 = [1, 2, 3, 0] := by
  have hlen : (history (m + 1)).length = m + 5 := by simp [history]
  rw [lzCopy_step (i := 1) (b := 1) (by omega) rfl,
    lzCopy_step (i := 2) (b := 2) (by rw [List.length_append, hlen]; rfl) rfl,
    lzCopy_step (i := 3) (b := 3) (by rw [List.length_append, List.length_append, hlen]; rfl) rfl,
    lzCopy_step (i := 4) (b := 0) (by
      rw [List.length_append, List.length_append, List.length_append, hlen]; rfl) rfl, lzCopy]

theorem history_expand (n : Nat) (hn : n = 32765) :
    lzExpand 32768 (history n) [.reference farCopy] = some [1, 2, 3, 0] := by
  have hlen : (history n).length = n + 4 := by simp [history]
  have hd : farCopy.dist.toNat = n + 3 := by rw [hn]; decide
  have hr : farCopy.run = 4 := rfl
  rw [lzExpand, lzCode, if_pos (by rw [hlen, hd]; omega), hd, hr]
  obtain ⟨m, rfl⟩ : ∃ m, n = m + 1 := ⟨n - 1, by omega⟩
  rw [history_copy]
  rfl

/-- C92. But not for the first entry: at every level there are a history, codes and the bytes they stand for
(found in the window, so the codes are fine) such that a trace with all of the history differs from a trace
with what the window buffer keeps. -/
theorem C92_one_short (level : Nat) (h1 : 1 ≤ level) (h9 : level ≤ 9) (limit : Nat) (hl : 1 ≤ limit) :
    ∃ h data codes config a b tr tr', lzExpand 32768 h codes = some data ∧ Config.gzip level = .ok config ∧
      AllRefs.withSixteen h data limit = .ok a ∧ AllRefs.withSixteen (window h) data limit = .ok b ∧
      Tracing.trace codes ⟨config, a⟩ = .ok tr ∧ Tracing.trace codes ⟨config, b⟩ = .ok tr' ∧ tr ≠ tr' := by
  obtain ⟨n, hn⟩ : ∃ n : Nat, n = 32765 := ⟨_, rfl⟩
  have hlen : (history n).length = n + 4 := by simp [history]
  have hw : window (history n) = (history n).tail := by
    unfold window
    rw [hlen, show n + 4 - 32768 = 1 by omega, List.drop_one]
  have hlen' : (history n).tail.length = n + 3 := by simp [history]
  obtain ⟨st, hst⟩ := gzipSettings_some ⟨h1, h9⟩
  obtain ⟨config, a, hc, ha, e1⟩ := C70_trace level st hst (history n) [1, 2, 3, 0] limit [.reference farCopy] rfl
  obtain ⟨config', b, hc', hb, e2⟩ :=
    C70_trace level st hst (window (history n)) [1, 2, 3, 0] limit [.reference farCopy] rfl
  obtain rfl : config = config' := Except.ok.inj (hc.symm.trans hc')
  refine ⟨history n, [1, 2, 3, 0], [.reference farCopy], config, a, b, _, _, history_expand n hn, hc, ha, hb,
    e1, e2, ?_⟩
  rw [hw, hlen, hlen', refTrace, refTrace, refTrace, refTrace]
  unfold guess
  rw [history_candidates n limit (by omega) (by omega) hl, short_candidates]
  have hch : ∃ m, st.chain = m + 1 := by
    have : level = 1 ∨ level = 2 ∨ level = 3 ∨ level = 4 ∨ level = 5 ∨ level = 6 ∨ level = 7 ∨
      level = 8 ∨ level = 9 := by omega
    rcases this with rfl | rfl | rfl | rfl | rfl | rfl | rfl | rfl | rfl <;> cases hst <;> exact ⟨_, rfl⟩
  obtain ⟨m, hm⟩ := hch
  have hchoose : choose st.nice ([(n + 3, 4)].take st.chain) = some (n + 3, 4) := by
    rw [hm]
    unfold choose
    by_cases h : st.nice ≤ 4 <;> simp [h]
  rw [hchoose]
  have : says (history n ++ [1, 2, 3, 0]) (n + 4)
      ((some (n + 3, 4)).filter fun c => !st.dropFar || decide (3 < c.2) || decide (c.1 ≤ 4096))
      (.reference farCopy) = true := by
    rw [says]
    have : farCopy.dist.toNat = n + 3 := by rw [hn]; decide
    rw [this]
    simp [farCopy, Ref.run]
  rw [if_pos this, List.take_nil, if_neg]
  · simp
  · simp [says, choose]

end Rezip
