import Verif.Props.Cut

/-!
# C121: the beginning of a traced file
-/

namespace Rezip

open Spec Parse Serialise

namespace Beginning

theorem candidates_le {w : List UInt8} {limit pos : Nat} {runs : List (Nat × Nat)} {c : Nat × Nat}
    (h : c ∈ candidates w limit pos runs) : c.2 ≤ 258 := by
  unfold candidates at h
  obtain ⟨j, _, rfl⟩ := List.mem_map.1 h
  exact Nat.min_le_left _ _

/-- Away from the end, the guess does not depend on what follows. -/
theorem guess_far {st : Settings} {limit : Nat} (w v : List UInt8) {pos : Nat} (runs : List (Nat × Nat))
    (h : pos + 258 ≤ w.length) : guess st limit (w ++ v) pos runs = guess st limit w pos runs := by
  unfold guess
  rw [Cut.candidates_cut w v limit pos runs (by omega), List.map_congr_left (g := id), List.map_id]
  intro c hc
  have := candidates_le hc
  show (c.1, min c.2 (w.length - pos)) = c
  rw [Nat.min_eq_left (by omega)]

theorem says_far {st : Settings} {limit : Nat} (w v : List UInt8) {pos : Nat} (runs : List (Nat × Nat)) (c : Code)
    (h : pos + 258 ≤ w.length) :
    says (w ++ v) pos (guess st limit (w ++ v) pos runs) c = says w pos (guess st limit w pos runs) c := by
  rw [guess_far w v runs h]
  cases c with
  | literal b =>
    simp only [says]
    rw [List.getElem?_append_left (by omega)]
  | reference r => rfl

/-- What a trace has for a code. -/
def entry (ok : Bool) : Code → Trace
  | .literal _ => if ok then .correct else .actuallyLiteral
  | .reference r => if ok then .correct else .actually r

/-- What is hidden after a code. -/
def after (st : Settings) (pos : Nat) (runs : List (Nat × Nat)) : Code → List (Nat × Nat)
  | .literal _ => runs
  | .reference r => if st.insert.any (fun l => decide (l < r.run)) then runs ++ [(pos, r.run)] else runs

theorem refTrace_eq (st : Settings) (limit : Nat) (w : List UInt8) (pos : Nat) (runs : List (Nat × Nat)) (c : Code)
    (cs : List Code) : refTrace st limit w pos runs (c :: cs) = entry (says w pos (guess st limit w pos runs) c) c ::
      refTrace st limit w (pos + c.emittedBytes) (after st pos runs c) cs := by
  cases c <;> rfl

/-- The trace of the first codes, if the bytes end after them. -/
theorem refTrace_begin {st : Settings} {limit : Nat} (w v : List UInt8) (cs ds : List Code) (pos : Nat)
    (runs : List (Nat × Nat)) (hc : pos + (cs.map Code.emittedBytes).sum ≤ w.length) (i : Nat) (hi : i < cs.length) :
    ∃ x y, (refTrace st limit (w ++ v) pos runs (cs ++ ds))[i]? = some x ∧
      (refTrace st limit w pos runs cs)[i]? = some y ∧ (y = x ∨ y = .correct) ∧
      (pos + ((cs.take i).map Code.emittedBytes).sum + 258 ≤ w.length → y = x) := by
  induction cs generalizing pos runs i with
  | nil => simp at hi
  | cons c cs ih =>
    rw [List.cons_append, refTrace_eq, refTrace_eq]
    rw [List.map_cons, List.sum_cons] at hc
    cases i with
    | zero =>
      refine ⟨_, _, rfl, rfl, ?_, ?_⟩
      · by_cases h : says (w ++ v) pos (guess st limit (w ++ v) pos runs) c = true
        · rw [h, Cut.says_cut (by omega) h]
          exact .inl rfl
        · rw [Bool.not_eq_true] at h
          rw [h]
          cases hs : says w pos (guess st limit w pos runs) c
          · exact .inl rfl
          · right
            cases c <;> rfl
      · intro hf
        have hf : pos + 258 ≤ w.length := by simpa using hf
        rw [says_far w v runs c hf]
    | succ i =>
      obtain ⟨x, y, h1, h2, h3, h4⟩ := ih (pos + c.emittedBytes) (after st pos runs c) (by omega) i (by simpa using hi)
      refine ⟨x, y, h1, h2, h3, fun hf => h4 ?_⟩
      rw [List.take_succ_cons, List.map_cons, List.sum_cons] at hf
      omega

theorem refTrace_length (st : Settings) (limit : Nat) (w : List UInt8) (pos : Nat) (runs : List (Nat × Nat))
    (cs : List Code) : (refTrace st limit w pos runs cs).length = cs.length := by
  induction cs generalizing pos runs with
  | nil => rfl
  | cons c cs ih => rw [refTrace_eq, List.length_cons, ih, List.length_cons]

theorem correct_begin {st : Settings} {limit : Nat} (w v : List UInt8) (cs ds : List Code) (pos : Nat)
    (runs : List (Nat × Nat)) (hc : pos + (cs.map Code.emittedBytes).sum ≤ w.length)
    (h : ∀ x ∈ refTrace st limit (w ++ v) pos runs (cs ++ ds), x = .correct) :
    ∀ x ∈ refTrace st limit w pos runs cs, x = .correct := by
  intro z hz
  obtain ⟨i, hi, rfl⟩ := List.mem_iff_getElem.1 hz
  obtain ⟨x, y, h1, h2, h3, _⟩ := refTrace_begin (st := st) (limit := limit) w v cs ds pos runs hc i
    (by rw [refTrace_length] at hi; exact hi)
  rw [List.getElem?_eq_getElem hi] at h2
  cases h2
  rcases h3 with h3 | h3
  · rw [h3]
    exact h x (List.mem_of_getElem? h1)
  · exact h3

/-- The first blocks, and the first codes of the next one. -/
theorem guessed_begin {st : Settings} {h : List UInt8} (pre pre' post : List Block) (b b' : Block)
    (hg : FileGuessed st h (pre ++ b :: post)) (hp : pre'.map lzCodes = pre.map lzCodes)
    (hs : ∀ c ∈ pre' ++ [b'], ∀ x, c ≠ .uncompressed x) (hb : lzCodes b' <+: lzCodes b) :
    FileGuessed st h (pre' ++ [b']) := by
  induction pre generalizing pre' h with
  | nil =>
    rw [List.map_nil, List.map_eq_nil_iff] at hp
    subst hp
    obtain ⟨ds, e⟩ := hb
    cases hg with
    | cons _ _ _ u h1 hu ht hrest =>
      rw [← e, lzExpand_append] at hu
      unfold blockTrace at ht
      rw [← e] at ht
      cases hu' : lzExpand 32768 h (lzCodes b') with
      | none => rw [hu'] at hu; cases hu
      | some u' =>
        rw [hu'] at hu
        dsimp only at hu
        cases hv : lzExpand 32768 (h ++ u') ds with
        | none => rw [hv] at hu; cases hu
        | some v =>
          rw [hv] at hu
          obtain rfl : u' ++ v = u := Option.some.inj hu
          refine .cons _ b' [] u' (hs b' (by simp)) hu' ?_ (.nil _)
          rw [← List.append_assoc] at ht
          exact correct_begin _ v _ ds _ [] (by rw [sum_of_expand hu', List.length_append]; omega) ht
  | cons a pre ih =>
    cases pre' with
    | nil => cases hp
    | cons a' pre' =>
      rw [List.map_cons, List.map_cons, List.cons.injEq] at hp
      cases hg with
      | cons _ _ _ u h1 hu ht hrest =>
        refine .cons _ a' _ u (hs a' (by simp)) (by rw [hp.1]; exact hu) (by rw [hp.1]; exact ht) ?_
        exact ih pre' hrest hp.2 fun c hc => hs c (List.mem_cons_of_mem _ hc)

/-- The same of the traces of files. -/
theorem traced_begin {st : Settings} {h : List UInt8} (pre pre' post : List Block) (b b' : Block)
    (parts parts' : List (List Trace)) (ht : FileTraced st h (pre ++ b :: post) parts)
    (ht' : FileTraced st h (pre' ++ [b']) parts') (hp : pre'.map lzCodes = pre.map lzCodes)
    (hb : lzCodes b' <+: lzCodes b) :
    ∃ tr tr' u, lzExpand 32768 h ((pre' ++ [b']).flatMap lzCodes) = some u ∧
      parts[pre.length]? = some tr ∧ parts' = parts.take pre.length ++ [tr'] ∧ tr'.length = (lzCodes b').length ∧
      ∀ i, i < (lzCodes b').length → (tr'[i]? = tr[i]? ∨ tr'[i]? = some .correct) ∧
        (((pre'.flatMap lzCodes ++ (lzCodes b').take i).map Code.emittedBytes).sum + 258 ≤ u.length → tr'[i]? = tr[i]?) := by
  induction pre generalizing pre' h parts parts' with
  | nil =>
    rw [List.map_nil, List.map_eq_nil_iff] at hp
    subst hp
    obtain ⟨ds, e⟩ := hb
    cases ht' with
    | cons _ _ _ u' parts' h1 hu' hh' hrest' =>
      cases hrest'
      cases ht with
      | cons _ _ _ u parts _ hu hh hrest =>
        rw [← e, lzExpand_append, hu'] at hu
        dsimp only at hu
        cases hv : lzExpand 32768 (h ++ u') ds with
        | none => rw [hv] at hu; cases hu
        | some v =>
          rw [hv] at hu
          obtain rfl : u' ++ v = u := Option.some.inj hu
          refine ⟨_, _, u', ?_, rfl, rfl, refTrace_length .., fun i hi => ?_⟩
          · rw [List.nil_append, List.flatMap_cons, List.flatMap_nil, List.append_nil]
            exact hu'
          · obtain ⟨x, y, e1, e2, e3, e4⟩ := refTrace_begin (st := st) (limit := st.insert.getD 65535) (window h ++ u') v
              (lzCodes b') ds (window h).length [] (by rw [sum_of_expand hu', List.length_append]; omega) i hi
            unfold blockTrace
            rw [← e, ← List.append_assoc, e1, e2]
            refine ⟨?_, fun hf => ?_⟩
            · rcases e3 with rfl | rfl
              · exact .inl rfl
              · exact .inr rfl
            · rw [List.flatMap_nil, List.nil_append] at hf
              rw [e4 (by rw [List.length_append]; omega)]
  | cons a pre ih =>
    cases pre' with
    | nil => cases hp
    | cons a' pre' =>
      rw [List.map_cons, List.map_cons, List.cons.injEq] at hp
      rw [List.cons_append] at ht ht'
      cases ht with
      | cons _ _ _ u parts h1 hu hh hrest =>
        cases ht' with
        | cons _ _ _ u' parts' h1' hu' hh' hrest' =>
          rw [hp.1, hu] at hu'
          cases hu'
          obtain ⟨tr, tr', v, e1, e2, e3, e4, e5⟩ := ih pre' parts parts' hrest hrest' hp.2
          refine ⟨tr, tr', u ++ v, ?_, e2, ?_, e4, fun i hi => ⟨(e5 i hi).1, fun hf => (e5 i hi).2 ?_⟩⟩
          · rw [List.cons_append, List.flatMap_cons, lzExpand_append, hp.1, hu]
            dsimp only
            rw [e1]
          · rw [hp.1, e3]
            rfl
          · rw [List.flatMap_cons, List.append_assoc, List.map_append, List.sum_append, hp.1, sum_of_expand hu,
              List.length_append] at hf
            omega

end Beginning

/-- C121. A file that is recognised stays so, at every level, if it is cut after any of its codes: the blocks before, and one
more with the first codes of the next block. The blocks may be compressed in another way, and the header and what follows may
change too. -/
theorem C121_recognised (p p' : Profile) (level : Nat) (hd hd' : GzHeader) (hv : hd.Valid) (hv' : hd'.Valid)
    (d rest d' rest' : List UInt8) (pre pre' post : List Block) (b b' : Block)
    (hdef : DeflateBytes (pre ++ b :: post) d) (hdef' : DeflateBytes (pre' ++ [b']) d')
    (hp : pre'.map lzCodes = pre.map lzCodes) (hs : ∀ c ∈ pre' ++ [b'], ∀ x, c ≠ .uncompressed x)
    (hb : lzCodes b' <+: lzCodes b) (h : RunGzip.tryGzip p level (hd.bytes ++ d ++ rest) = .ok ()) :
    RunGzip.tryGzip p' level (hd'.bytes ++ d' ++ rest') = .ok () := by
  obtain ⟨st, hst, hg⟩ := guessed_of_try p level hd hv d rest _ hdef h
  exact (C88_try_gzip p' level _).2 ⟨st, hd', d', rest', _, hst, hv', rfl, hdef',
    Beginning.guessed_begin pre pre' post b b' hg hp hs hb⟩

/-- C121. The trace of the first codes of a block is the beginning of the trace of all of them, but that codes that start in the
last 257 bytes may be predicted that were not. -/
theorem C121_trace (level : Nat) (h1 : 1 ≤ level) (h9 : level ≤ 9) (cs ds : List Code) (data more : List UInt8)
    (he : lzExpand 32768 [] cs = some data) (he' : lzExpand 32768 [] (cs ++ ds) = some (data ++ more)) :
    ∃ tr tr', Tracer.tryGzip level [] data cs = .ok tr ∧ Tracer.tryGzip level [] (data ++ more) (cs ++ ds) = .ok tr' ∧
      tr.length = cs.length ∧ ∀ i, i < cs.length →
        (tr[i]? = tr'[i]? ∨ tr[i]? = some .correct) ∧
        (((cs.take i).map Code.emittedBytes).sum + 258 ≤ data.length → tr[i]? = tr'[i]?) := by
  obtain ⟨st, hst⟩ : ∃ st, gzipSettings level = some st := by
    have : level = 1 ∨ level = 2 ∨ level = 3 ∨ level = 4 ∨ level = 5 ∨ level = 6 ∨ level = 7 ∨ level = 8 ∨ level = 9 := by
      omega
    rcases this with rfl | rfl | rfl | rfl | rfl | rfl | rfl | rfl | rfl <;> exact ⟨_, rfl⟩
  refine ⟨_, _, C70_try_gzip level st hst data cs he, C70_try_gzip level st hst _ _ he',
    Beginning.refTrace_length .., fun i hi => ?_⟩
  obtain ⟨x, y, e1, e2, e3, e4⟩ := Beginning.refTrace_begin (st := st) (limit := st.insert.getD 65535) data more cs ds 0 []
    (by rw [sum_of_expand he]; omega) i hi
  rw [e1, e2]
  refine ⟨?_, fun hf => ?_⟩
  · rcases e3 with rfl | rfl
    · exact .inl rfl
    · exact .inr rfl
  · rw [e4 (by omega)]

/-- C121 for the traces of whole files: those of the blocks before are the same, and so is that of the last block, as far as it
goes, but that codes that start in the last 257 bytes of the data may be predicted. -/
theorem C121_file (p p' : Profile) (level : Nat) (hd hd' : GzHeader) (hv : hd.Valid) (hv' : hd'.Valid)
    (d rest d' rest' : List UInt8) (pre pre' post : List Block) (b b' : Block) (parts parts' : List (List Trace))
    (hdef : DeflateBytes (pre ++ b :: post) d) (hdef' : DeflateBytes (pre' ++ [b']) d')
    (hp : pre'.map lzCodes = pre.map lzCodes) (hb : lzCodes b' <+: lzCodes b)
    (h : RunGzip.run p level (hd.bytes ++ d ++ rest) = .ok parts)
    (h' : RunGzip.run p' level (hd'.bytes ++ d' ++ rest') = .ok parts') :
    ∃ tr tr' u, lzExpand 32768 [] ((pre' ++ [b']).flatMap lzCodes) = some u ∧
      parts[pre.length]? = some tr ∧ parts' = parts.take pre.length ++ [tr'] ∧ tr'.length = (lzCodes b').length ∧
      ∀ i, i < (lzCodes b').length → (tr'[i]? = tr[i]? ∨ tr'[i]? = some .correct) ∧
        (((pre'.flatMap lzCodes ++ (lzCodes b').take i).map Code.emittedBytes).sum + 258 ≤ u.length → tr'[i]? = tr[i]?) := by
  have key : ∀ (p : Profile) (hd : GzHeader) (d rest : List UInt8) (blocks : List Block) (parts : List (List Trace)),
      hd.Valid → DeflateBytes blocks d → RunGzip.run p level (hd.bytes ++ d ++ rest) = .ok parts →
      ∃ st, gzipSettings level = some st ∧ FileTraced st [] blocks parts := by
    intro p hd d rest blocks parts hv hdef h
    have hh : Gzip.discardHeader (hd.bytes ++ d ++ rest) = .ok hd.bytes (d ++ rest) := by
      rw [List.append_assoc]
      exact C57_accepted hd hv (d ++ rest)
    have hparse : parseAll (d ++ rest) = .ok (blocks, rest) := (parseAll_iff _ _ _).2 ⟨d, rfl, hdef⟩
    rcases RunGzip.run_eq p level _ _ _ hh with ⟨st, blocks', rest', parts', h1, h2, h3, h4⟩ | ⟨_, q, hq⟩
    · rw [hparse] at h2
      cases h2
      rw [h] at h4
      cases h4
      exact ⟨st, h1, h3⟩
    · rw [h] at hq
      cases hq
  obtain ⟨st, hst, ht⟩ := key p hd d rest _ parts hv hdef h
  obtain ⟨st', hst', ht'⟩ := key p' hd' d' rest' _ parts' hv' hdef' h'
  rw [hst] at hst'
  cases hst'
  exact Beginning.traced_begin pre pre' post b b' parts parts' ht ht' hp hb

/-- C121. It may be predicted, at any level, and 257 is the most: a run of equal bytes is cut within the longest match. -/
theorem C121_not_same (level : Nat) (h1 : 1 ≤ level) (h9 : level ≤ 9) :
    ∃ (cs ds : List Code) (data more : List UInt8) (tr tr' : List Trace) (i : Nat),
      lzExpand 32768 [] cs = some data ∧ lzExpand 32768 [] (cs ++ ds) = some (data ++ more) ∧
      Tracer.tryGzip level [] data cs = .ok tr ∧ Tracer.tryGzip level [] (data ++ more) (cs ++ ds) = .ok tr' ∧
      i < cs.length ∧ tr[i]? = some .correct ∧ tr'[i]? = some (.actually ⟨1, 254⟩) ∧
      ((cs.take i).map Code.emittedBytes).sum + 257 = data.length := by
  have e : lzExpand 32768 [] [.literal 0, .literal 0, .reference ⟨1, 254⟩] = some (List.replicate 259 0) := by decide +kernel
  have e' : lzExpand 32768 [] ([.literal 0, .literal 0, .reference ⟨1, 254⟩] ++ [.literal 0]) =
      some (List.replicate 259 0 ++ [0]) := by decide +kernel
  have : level = 1 ∨ level = 2 ∨ level = 3 ∨ level = 4 ∨ level = 5 ∨ level = 6 ∨ level = 7 ∨ level = 8 ∨ level = 9 := by
    omega
  rcases this with rfl | rfl | rfl | rfl | rfl | rfl | rfl | rfl | rfl <;>
    exact ⟨_, _, _, _, _, _, 2, e, e', C70_try_gzip _ _ rfl _ _ e, C70_try_gzip _ _ rfl _ _ e', by decide +kernel,
      by decide +kernel, by decide +kernel, by decide +kernel⟩

/-- `xabc` and `abcya` as literals, in two blocks, and cut before the last two. -/
theorem begin_parse :
    parseAll [170, 72, 76, 74, 6, 44, 49, 41, 185, 50, 17, 0] = .ok ([.fixedHuffman [.literal 120, .literal 97, .literal 98, .literal 99],
      .fixedHuffman [.literal 97, .literal 98, .literal 99, .literal 121, .literal 97]], []) ∧
    parseAll [170, 72, 76, 74, 6, 44, 49, 41, 25, 0] = .ok ([.fixedHuffman [.literal 120, .literal 97, .literal 98, .literal 99],
      .fixedHuffman [.literal 97, .literal 98, .literal 99]], []) := by
  decide +kernel

/-- C121. If a file can be traced that does not mean that its beginning can, at any level: the byte at which a mispredicted
literal of a later block is looked up (defect of C87) may be missing. -/
theorem C121_not_traced (level : Nat) (h1 : 1 ≤ level) (h9 : level ≤ 9) :
    ∃ (d d' : List UInt8) (a b b' : Block) (parts : List (List Trace)), DeflateBytes [a, b] d ∧ DeflateBytes [a, b'] d' ∧
      lzCodes b' <+: lzCodes b ∧ RunGzip.run .dev level (exampleGz ++ d) = .ok parts ∧
      RunGzip.run .dev level (exampleGz ++ d') = .error (.panic .index) := by
  obtain ⟨d, e, hd⟩ := (parseAll_iff _ _ _).1 begin_parse.1
  obtain ⟨d', e', hd'⟩ := (parseAll_iff _ _ _).1 begin_parse.2
  rw [List.append_nil] at e e'
  subst e e'
  refine ⟨_, _, _, _, _, [List.replicate 4 .correct, .actuallyLiteral :: List.replicate 4 .correct], hd, hd',
    ⟨[.literal 121, .literal 97], rfl⟩, ?_⟩
  have : level = 1 ∨ level = 2 ∨ level = 3 ∨ level = 4 ∨ level = 5 ∨ level = 6 ∨ level = 7 ∨ level = 8 ∨ level = 9 := by
    omega
  rcases this with rfl | rfl | rfl | rfl | rfl | rfl | rfl | rfl | rfl <;>
    decide +kernel

/-- `zabcdefabc1abcdef` at level 1, and cut after `1`: both are recognised, and the codes of the one are the first codes of the
other. -/
example :
    RunGzip.tryGzip .dev 1 (exampleGz ++ [171, 74, 76, 74, 78, 73, 77, 3, 146, 134, 16, 22, 0]) = .ok () ∧
    RunGzip.tryGzip .dev 1 (exampleGz ++ [171, 74, 76, 74, 78, 73, 77, 3, 146, 134, 0]) = .ok () ∧
    parseAll [171, 74, 76, 74, 78, 73, 77, 3, 146, 134, 16, 22, 0] = .ok ([.fixedHuffman
      [.literal 122, .literal 97, .literal 98, .literal 99, .literal 100, .literal 101, .literal 102, .reference ⟨6, 0⟩,
        .literal 49, .reference ⟨10, 3⟩]], []) ∧
    parseAll [171, 74, 76, 74, 78, 73, 77, 3, 146, 134, 0] = .ok ([.fixedHuffman
      [.literal 122, .literal 97, .literal 98, .literal 99, .literal 100, .literal 101, .literal 102, .reference ⟨6, 0⟩,
        .literal 49]], []) := by
  decide +kernel

/-- `xabcd.abc` and `xabcd.abcd`: the reference is guessed only if the bytes end after it. -/
example :
    Tracer.tryGzip 6 [] [120, 97, 98, 99, 100, 46, 97, 98, 99]
      [.literal 120, .literal 97, .literal 98, .literal 99, .literal 100, .literal 46, .reference ⟨5, 0⟩] =
        .ok (List.replicate 7 .correct) ∧
    Tracer.tryGzip 6 [] [120, 97, 98, 99, 100, 46, 97, 98, 99, 100]
      [.literal 120, .literal 97, .literal 98, .literal 99, .literal 100, .literal 46, .reference ⟨5, 0⟩, .literal 100] =
        .ok (List.replicate 6 .correct ++ [.actually ⟨5, 0⟩, .correct]) := by
  decide +kernel

end Rezip
