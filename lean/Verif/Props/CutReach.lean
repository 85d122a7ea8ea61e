import Verif.Props.Cut

/-!
# C120: a reference exactly 32768 back

`history n` followed by 1, 2, 3, 0, as one block and cut before the last reference, which is then out of reach: the tracer
never refers to the first byte that it knows.
-/

namespace Rezip

open Spec Parse Serialise

namespace Cut

/-- The bytes. -/
abbrev farBytes (n : Nat) : List UInt8 := history n ++ [1, 2, 3, 0]

theorem farBytes_zero {n i : Nat} (h4 : 4 ≤ i) (h : i < n + 4) : (farBytes n)[i]? = some 0 := by
  obtain ⟨k, rfl⟩ : ∃ k, i = k + 4 := ⟨i - 4, by omega⟩
  rw [List.getElem?_append_left (by simp [history]; omega)]
  show (List.replicate n (0 : UInt8))[k]? = some 0
  rw [List.getElem?_replicate, if_pos (by omega)]

theorem farBytes_one (n : Nat) : (farBytes n)[n + 4]? = some 1 := by
  have : (history n).length = n + 4 := by simp [history]
  rw [List.getElem?_append_right (by omega), this, Nat.sub_self]
  rfl

theorem farBytes_drop {n q : Nat} (h4 : 4 ≤ q) (h : q ≤ n + 4) :
    (farBytes n).drop q = List.replicate (n + 4 - q) 0 ++ [1, 2, 3, 0] := by
  have hl : (history n).length = n + 4 := by simp [history]
  rw [List.drop_append_of_le_length (by omega)]
  congr 1
  obtain ⟨k, rfl⟩ : ∃ k, q = k + 4 := ⟨q - 4, by omega⟩
  show (List.replicate n (0 : UInt8)).drop k = _
  rw [List.drop_replicate]
  congr 1
  omega

theorem commonPrefix_zeros (m : Nat) (x y : List UInt8) :
    commonPrefix (List.replicate m 0 ++ 1 :: x) (List.replicate (m + 1) 0 ++ y) = m := by
  induction m with
  | zero => rfl
  | succ m ih =>
    rw [List.replicate_succ (n := m), List.replicate_succ (n := m + 1), List.cons_append, List.cons_append, commonPrefix,
      if_pos rfl, ih]

theorem three_zeros (m : Nat) (x : List UInt8) : three (List.replicate (m + 3) 0 ++ x) 0 = some (0, 0, 0) := rfl

theorem three_drop (w : List UInt8) (j : Nat) : three w j = three (w.drop j) 0 := by
  unfold three
  rw [List.drop_zero]

theorem farBytes_three {n q : Nat} (h4 : 4 ≤ q) (h : q + 3 ≤ n + 4) : three (farBytes n) q = some (0, 0, 0) := by
  rw [three_drop, farBytes_drop h4 (by omega)]
  obtain ⟨m, e⟩ : ∃ m, n + 4 - q = m + 3 := ⟨n + 4 - q - 3, by omega⟩
  rw [e]
  rfl

theorem farBytes_prefix {n q j : Nat} (h : q + 3 ≤ n + 4) (h0 : 0 < j) (hj : j < q) :
    commonPrefix ((farBytes n).drop q) ((farBytes n).drop j) ≤ n + 4 - q := by
  apply Decidable.byContradiction
  intro hn
  obtain ⟨b, e1, e2⟩ := commonPrefix_spec (i := n + 4 - q) (Nat.lt_of_not_le hn)
  rw [List.getElem?_drop, show q + (n + 4 - q) = n + 4 by omega, farBytes_one] at e1
  rw [List.getElem?_drop, farBytes_zero (by omega) (by omega)] at e2
  rw [← e1] at e2
  cases e2

theorem choose_first {cap : Nat} {c : Nat × Nat} {l : List (Nat × Nat)} (h : ∀ d ∈ l, d.2 ≤ c.2) :
    choose cap (c :: l) = some c := by
  unfold choose
  by_cases hc : cap ≤ c.2
  · rw [List.find?_cons_of_pos (by simpa using hc)]
  · rw [List.find?_eq_none.2 (by
      intro d hd
      rcases List.mem_cons.1 hd with rfl | hd
      · simpa using hc
      · have := h d hd
        simp only [decide_eq_true_eq]
        omega)]
    dsimp only
    rw [List.find?_cons_of_pos]
    rw [List.all_eq_true]
    intro d hd
    rcases List.mem_cons.1 hd with rfl | hd
    · simp
    · simpa using h d hd

/-- Among the zero bytes, the one right before is referred to. -/
theorem zero_guess {st : Settings} (hc : 0 < st.chain) {n q : Nat} (h5 : 5 ≤ q) (h : q + 3 ≤ n + 4) :
    guess st 65535 (farBytes n) q [] = some (1, min 258 (n + 4 - q)) := by
  obtain ⟨p, rfl⟩ : ∃ p, q = p + 1 := ⟨q - 1, by omega⟩
  have hsame : sameHash (farBytes n) p (p + 1) = true := by
    unfold sameHash
    rw [farBytes_three (by omega) h, farBytes_three (by omega) (by omega)]
    simp
  obtain ⟨l, hl⟩ : ∃ l, candidates (farBytes n) 65535 (p + 1) [] = (1, min 258 (n + 4 - (p + 1))) :: l ∧
      ∀ d ∈ l, d.2 ≤ min 258 (n + 4 - (p + 1)) := by
    unfold candidates searched
    rw [List.range_succ, List.reverse_append, List.reverse_singleton, List.singleton_append,
      List.filter_cons_of_pos (by
        rw [hsame, decide_eq_true (show 0 < p by omega)]
        rfl),
      List.take_succ_cons, List.filter_cons_of_pos (by
        rw [farBytes_three (by omega) h, farBytes_three (by omega) (by omega), decide_eq_true (by omega)]
        simp), List.map_cons]
    refine ⟨_, List.cons_eq_cons.2 ⟨?_, rfl⟩, ?_⟩
    · rw [farBytes_drop (by omega) (by omega), farBytes_drop (by omega) (by omega),
        show n + 4 - p = (n + 4 - (p + 1)) + 1 by omega, commonPrefix_zeros, Nat.add_sub_cancel_left]
    · intro d hd
      obtain ⟨j, hj, rfl⟩ := List.mem_map.1 hd
      have hm := List.mem_filter.1 (List.mem_of_mem_take (List.mem_filter.1 hj).1)
      have hjp : j < p := by simpa using hm.1
      have hj0 : 0 < j := by
        have := hm.2
        simp only [Bool.and_eq_true, decide_eq_true_eq] at this
        exact this.1.1
      have := farBytes_prefix h hj0 (show j < p + 1 by omega)
      show min 258 _ ≤ min 258 _
      omega
  obtain ⟨k, hk⟩ : ∃ k, st.chain = k + 1 := ⟨st.chain - 1, by omega⟩
  unfold guess
  rw [hl.1, hk, List.take_succ_cons, choose_first fun d hd => hl.2 d (List.mem_of_mem_take hd), Option.filter_some,
    if_pos (by simp)]

/-- At the start there is nothing to refer to. -/
theorem start_guess (st : Settings) {n q : Nat} (hn : 3 ≤ n) (hq : q ≤ 4) : guess st 65535 (farBytes n) q [] = none := by
  have : candidates (farBytes n) 65535 q [] = [] := by
    obtain ⟨m, rfl⟩ : ∃ m, n = m + 3 := ⟨n - 3, by omega⟩
    unfold candidates
    rw [List.filter_eq_nil_iff.2, List.map_nil]
    intro j hj
    have hm := List.mem_filter.1 (List.mem_of_mem_take hj)
    have hjq : j < q := by simpa using hm.1
    have hj0 : 0 < j := by
      have := hm.2
      simp only [Bool.and_eq_true, decide_eq_true_eq] at this
      exact this.1.1
    have t1 : three (farBytes (m + 3)) 1 = some (1, 2, 3) := rfl
    have t2 : three (farBytes (m + 3)) 2 = some (2, 3, 0) := rfl
    have t3 : three (farBytes (m + 3)) 3 = some (3, 0, 0) := rfl
    have t4 : three (farBytes (m + 3)) 4 = some (0, 0, 0) := rfl
    have : (j = 1 ∧ (q = 2 ∨ q = 3 ∨ q = 4)) ∨ (j = 2 ∧ (q = 3 ∨ q = 4)) ∨ (j = 3 ∧ q = 4) := by omega
    rcases this with ⟨rfl, rfl | rfl | rfl⟩ | ⟨rfl, rfl | rfl⟩ | ⟨rfl, rfl⟩ <;> simp [t1, t2, t3, t4]
  unfold guess
  rw [this, List.take_nil, choose_nil]
  rfl

/-- The codes before the last reference. -/
def farCodes : List Code :=
  [.literal 0, .literal 1, .literal 2, .literal 3, .literal 0] ++ (List.replicate 126 (.reference ⟨1, 255⟩) ++
    [.reference ⟨1, 253⟩])

theorem zeros_trace {st : Settings} (hi : st.insert = none) (hc : 0 < st.chain) {n : Nat} (k q : Nat) (h5 : 5 ≤ q)
    (h : q + 258 * k ≤ n + 4) :
    ∀ x ∈ refTrace st 65535 (farBytes n) q [] (List.replicate k (.reference ⟨1, 255⟩)), x = .correct := by
  induction k generalizing q with
  | zero => intro x hx; cases hx
  | succ k ih =>
    rw [List.replicate_succ, refTrace_cons _ _ _ _ _ (.of_none hi _)]
    have hr : (Code.reference ⟨1, 255⟩).emittedBytes = 258 := rfl
    refine ⟨?_, ?_⟩
    · rw [zero_guess hc h5 (by omega), show min 258 (n + 4 - q) = 258 by omega]
      simp [says, Ref.run]
    · rw [hr]
      exact ih (q + 258) (by omega) (by omega)

theorem last_guess {st : Settings} (hc : 0 < st.chain) {n : Nat} (hn : n = 32765) :
    guess st 65535 (farBytes n) (n + 4) [] = some (n + 3, 4) := by
  obtain ⟨k, hk⟩ : ∃ k, st.chain = k + 1 := ⟨st.chain - 1, by omega⟩
  unfold guess
  rw [history_candidates n 65535 (by omega) (by omega) (by decide), hk, List.take_succ_cons, List.take_nil,
    choose_first (by intro d hd; cases hd), Option.filter_some, if_pos (by simp)]

theorem farDist {n : Nat} (hn : n = 32765) : farCopy.dist.toNat = n + 3 := by
  rw [hn]
  decide

/-- As one block all of the codes are guessed. -/
theorem far_trace {st : Settings} (hi : st.insert = none) (hc : 0 < st.chain) {n : Nat} (hn : n = 32765) :
    ∀ x ∈ refTrace st 65535 (farBytes n) 0 [] (farCodes ++ [.reference farCopy]), x = .correct := by
  have hg : ∀ q, q ≤ 4 → guess st 65535 (farBytes n) q [] = none := fun q hq => start_guess st (by omega) hq
  have hb : ∀ q b, (farBytes n)[q]? = some b → says (farBytes n) q none (.literal b) = true := by
    intro q b h
    simp [says, h]
  obtain ⟨m, hm⟩ : ∃ m, n = m + 1 := ⟨n - 1, by omega⟩
  unfold farCodes
  rw [refTrace_append _ _ _ _ _ (.of_none hi _), refTrace_append _ _ _ _ _ (.of_none hi _), refTrace_append _ _ _ _ _ (.of_none hi _)]
  have hs : (((List.replicate 126 (.reference ⟨1, 255⟩) : List Code)).map Code.emittedBytes).sum = 32508 := by
    decide +kernel
  have hs' : (([.literal 0, .literal 1, .literal 2, .literal 3, .literal 0] ++
      (List.replicate 126 (.reference ⟨1, 255⟩) ++ [.reference ⟨1, 253⟩]) : List Code).map Code.emittedBytes).sum = 32769 := by
    decide +kernel
  have hs5 : (([.literal 0, .literal 1, .literal 2, .literal 3, .literal 0] : List Code).map Code.emittedBytes).sum = 5 := rfl
  rw [hs, hs', hs5]
  refine ⟨⟨?_, zeros_trace hi hc 126 _ (by omega) (by omega), ?_⟩, ?_⟩
  · have e : ∀ b, (Code.literal b).emittedBytes = 1 := fun _ => rfl
    rw [refTrace_cons _ _ _ _ _ (.of_none hi _), refTrace_cons _ _ _ _ _ (.of_none hi _), refTrace_cons _ _ _ _ _ (.of_none hi _), refTrace_cons _ _ _ _ _ (.of_none hi _), refTrace_cons _ _ _ _ _ (.of_none hi _)]
    simp only [e, Nat.zero_add]
    rw [hg 0 (by omega), hg 1 (by omega), hg (1 + 1) (by omega), hg (1 + 1 + 1) (by omega), hg (1 + 1 + 1 + 1) (by omega)]
    refine ⟨hb _ _ rfl, hb _ _ rfl, hb _ _ rfl, hb _ _ rfl, hb _ _ ?_, fun x hx => (nomatch hx)⟩
    exact farBytes_zero (by omega) (by omega)
  · rw [refTrace_cons _ _ _ _ _ (.of_none hi _)]
    refine ⟨?_, fun x hx => (nomatch hx)⟩
    rw [zero_guess hc (by omega) (by omega), show min 258 (n + 4 - (0 + 5 + 32508)) = 256 by omega]
    rfl
  · rw [refTrace_cons _ _ _ _ _ (.of_none hi _)]
    refine ⟨?_, fun x hx => (nomatch hx)⟩
    rw [show 0 + 32769 = n + 4 by omega, last_guess hc hn, says, farDist hn]
    simp [farCopy, Ref.run]

theorem lzCopy_last (h : List UInt8) (b : UInt8) (k : Nat) : lzCopy (h ++ [b]) 1 k = List.replicate k b := by
  induction k generalizing h with
  | zero => rfl
  | succ k ih =>
    rw [lzCopy]
    have : (h ++ [b]).getD ((h ++ [b]).length - 1) 0 = b := by simp
    rw [this, ih (h ++ [b]), List.replicate_succ]

theorem zeros_code (h : List UInt8) (x : UInt8) :
    lzCode 32768 (h ++ [0]) (.reference ⟨1, x⟩) = some (List.replicate (Ref.run ⟨1, x⟩) 0) := by
  have hd : (Ref.mk 1 x).dist.toNat = 1 := rfl
  rw [lzCode, hd, if_pos (by rw [List.length_append, List.length_singleton]; omega), lzCopy_last]

theorem zeros_turn (k : Nat) : [(0 : UInt8)] ++ List.replicate k 0 = List.replicate k 0 ++ [0] := by
  rw [← List.replicate_succ', List.replicate_succ]
  rfl

theorem zeros_expand (k : Nat) (h : List UInt8) :
    lzExpand 32768 (h ++ [0]) (List.replicate k (.reference ⟨1, 255⟩)) = some (List.replicate (258 * k) 0) := by
  induction k generalizing h with
  | zero => rfl
  | succ k ih =>
    have hr : Ref.run ⟨1, 255⟩ = 258 := rfl
    rw [List.replicate_succ, lzExpand, zeros_code, hr]
    dsimp only
    rw [List.append_assoc, zeros_turn, ← List.append_assoc, ih]
    dsimp only [Option.map_some]
    rw [List.replicate_append_replicate, show 258 + 258 * k = 258 * (k + 1) by omega]

theorem expand_zeros (k n : Nat) (hn : 1 + (258 * k + 256) = n) :
    lzExpand 32768 [] ([.literal 0, .literal 1, .literal 2, .literal 3, .literal 0] ++
      (List.replicate k (.reference ⟨1, 255⟩) ++ [.reference ⟨1, 253⟩])) = some (history n) := by
  have hr : Ref.run ⟨1, 253⟩ = 256 := rfl
  have h5 : lzExpand 32768 [] [.literal 0, .literal 1, .literal 2, .literal 3, .literal 0] = some ([0, 1, 2, 3] ++ [0]) := rfl
  have hl : lzExpand 32768 ([0, 1, 2, 3] ++ [0] ++ List.replicate (258 * k) 0) [.reference ⟨1, 253⟩] =
      some (List.replicate 256 0) := by
    rw [List.append_assoc, zeros_turn, ← List.append_assoc, lzExpand, zeros_code, hr]
    dsimp only
    rw [lzExpand]
    dsimp only
    rw [List.append_nil]
  have hh : history n = [0, 1, 2, 3] ++ ([0] ++ List.replicate (258 * k + 256) 0) := by
    rw [← hn, Nat.add_comm]
    rfl
  rw [lzExpand_append, h5]
  dsimp only
  rw [List.nil_append, lzExpand_append, zeros_expand]
  dsimp only
  rw [hl, hh, ← List.replicate_append_replicate]
  rfl

theorem farCodes_expand {n : Nat} (hn : n = 32765) : lzExpand 32768 [] farCodes = some (history n) :=
  expand_zeros 126 n (by omega)

end Cut

/-- C120. The exception is there, at levels 4 to 9: a file that is recognised as one block, with a reference 32768 back, and
is not when it is cut right before that reference. -/
theorem C120_not_reach (level : Nat) (h4 : 4 ≤ level) (h9 : level ≤ 9) (hd : GzHeader) (hv : hd.Valid) (p : Profile) :
    ∃ (d d' : List UInt8) (blocks blocks' : List Block), DeflateBytes blocks d ∧ DeflateBytes blocks' d' ∧
      blocks.length = 1 ∧ blocks.flatMap lzCodes = blocks'.flatMap lzCodes ∧ (∀ b ∈ blocks', ∀ x, b ≠ .uncompressed x) ∧
      RunGzip.tryGzip p level (hd.bytes ++ d ++ []) = .ok () ∧ RunGzip.tryGzip p level (hd.bytes ++ d' ++ []) ≠ .ok () := by
  obtain ⟨n, hn⟩ : ∃ n : Nat, n = 32765 := ⟨_, rfl⟩
  obtain ⟨st, hst, hi, hni⟩ := Cut.slow_nice h4 h9
  have hc : 0 < st.chain := by
    have : level = 4 ∨ level = 5 ∨ level = 6 ∨ level = 7 ∨ level = 8 ∨ level = 9 := by omega
    rcases this with rfl | rfl | rfl | rfl | rfl | rfl <;> cases hst <;> decide
  have hexp : lzExpand 32768 [] (Cut.farCodes ++ [.reference farCopy]) = some (Cut.farBytes n) := by
    rw [lzExpand_append, Cut.farCodes_expand hn]
    dsimp only
    rw [List.nil_append, history_expand n hn]
  have hok : ∀ r, Code.reference r ∈ Cut.farCodes ++ [.reference farCopy] → RefOk r := by
    have : ∀ c ∈ Cut.farCodes ++ [.reference farCopy], (match c with
        | .literal _ => true
        | .reference r => decide (1 ≤ r.dist.toNat ∧ r.dist.toNat ≤ 32768 ∧ 3 ≤ r.run ∧ r.run ≤ 258)) = true := by
      decide +kernel
    intro r hr
    have := this _ hr
    dsimp only at this
    rw [decide_eq_true_eq] at this
    exact this
  have mk : ∀ blocks : List Block, blocks ≠ [] → (∀ b ∈ blocks, ∃ cs, b = .fixedHuffman cs ∧
      ∀ r, Code.reference r ∈ cs → RefOk r) → ∃ d, DeflateBytes blocks d := by
    intro blocks hne hb
    obtain ⟨bytes, _, h⟩ := C23_compress_parse_partial blocks hne
      (by
        intro b hb'
        obtain ⟨cs, rfl, h⟩ := hb b hb'
        exact (C23_fixed_encodable cs).2 h)
      (by
        intro b hb'
        obtain ⟨cs, rfl, h⟩ := hb b hb'
        trivial)
    obtain ⟨d, _, hdef⟩ := (parseAll_iff _ _ _).1 (h [])
    exact ⟨d, hdef⟩
  obtain ⟨d, hdef⟩ := mk [.fixedHuffman (Cut.farCodes ++ [.reference farCopy])] (by simp) (by
    intro b hb
    exact ⟨_, List.mem_singleton.1 hb, hok⟩)
  obtain ⟨d', hdef'⟩ := mk [.fixedHuffman Cut.farCodes, .fixedHuffman [.reference farCopy]] (by simp) (by
    intro b hb
    rcases List.mem_cons.1 hb with rfl | hb
    · exact ⟨_, rfl, fun r hr => hok r (List.mem_append.2 (.inl hr))⟩
    · exact ⟨_, List.mem_singleton.1 hb, fun r hr => hok r (List.mem_append.2 (.inr hr))⟩)
  refine ⟨d, d', _, _, hdef, hdef', rfl, ?_, ?_, ?_, ?_⟩
  · rw [List.flatMap_cons, List.flatMap_nil, List.append_nil, List.flatMap_cons, List.flatMap_cons, List.flatMap_nil,
      List.append_nil]
    rfl
  · intro b hb x
    rcases List.mem_cons.1 hb with rfl | hb
    · exact fun h => (nomatch h)
    · rw [List.mem_singleton.1 hb]
      exact fun h => (nomatch h)
  · refine (C88_try_gzip p level _).2 ⟨st, hd, d, [], _, hst, hv, rfl, hdef, ?_⟩
    refine .cons [] _ [] (Cut.farBytes n) (fun x h => (nomatch h)) hexp ?_ (.nil _)
    have := Cut.far_trace hi hc hn
    show ∀ x ∈ refTrace st (st.insert.getD 65535) (Cut.farBytes n) 0 [] _, x = .correct
    rw [hi]
    exact this
  · intro hrun
    obtain ⟨st', hst', hg⟩ := guessed_of_try p level hd hv d' [] _ hdef' hrun
    rw [hst] at hst'
    cases hst'
    cases hg with
    | cons _ _ _ u hb hu ht hrest =>
      cases hrest with
      | cons _ _ _ v hb' hv' ht' hrest' =>
        have e : u = history n := by
          have := Cut.farCodes_expand hn
          rw [show lzCodes (.fixedHuffman Cut.farCodes) = Cut.farCodes from rfl, this] at hu
          exact (Option.some.inj hu).symm
        subst e
        rw [List.nil_append, show lzCodes (.fixedHuffman [.reference farCopy]) = [.reference farCopy] from rfl,
          history_expand n hn] at hv'
        cases hv'
        have hw : window (history n) = (history n).tail := by
          have hlen : (history n).length = n + 4 := by simp [history]
          unfold window
          rw [hlen, show n + 4 - 32768 = 1 by omega, List.drop_one]
        have hlen' : (history n).tail.length = n + 3 := by simp [history]
        have ht' : ∀ x ∈ refTrace st (st.insert.getD 65535) (window ([] ++ history n) ++ [1, 2, 3, 0])
          (window ([] ++ history n)).length [] [.reference farCopy], x = .correct := ht'
        rw [List.nil_append, hw, hlen', Cut.refTrace_cons _ _ _ _ _ (.of_none hi _)] at ht'
        have := ht'.1
        unfold guess at this
        rw [short_candidates, List.take_nil, Cut.choose_nil] at this
        cases this

/-- A header to use it with. -/
example : (GzHeader.mk false (0, 0, 0, 0) 0 3 none none none none).Valid ∧ Code.reference farCopy ∉ Cut.farCodes ∧
    Cut.farCodes.length = 132 := by
  refine ⟨⟨?_, ?_, ?_⟩, by decide +kernel, by decide +kernel⟩ <;> exact fun x hx => (nomatch hx)

end Rezip
