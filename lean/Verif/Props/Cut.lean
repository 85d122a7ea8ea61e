import Verif.Lemmas.Cut
import Verif.Props.GzipLazy

/-!
# C120: cutting blocks in a recognised file

A compressor may cut its codes into blocks where it likes. Each block is traced on its own, with the window before it.
-/

namespace Rezip

open Spec Parse Serialise

namespace Cut

/-- Blocks that have, together, the codes of the rest of a block that is guessed. -/
theorem guessed_parts {st : Settings} (hn : 3 < st.nice) {h : List UInt8} {more : List Block}
    (bs : List Block) (hi : Shown st (bs.flatMap lzCodes)) (done left : List UInt8) (hs : ∀ b ∈ bs, ∀ d, b ≠ .uncompressed d)
    (hx : lzExpand 32768 (h ++ done) (bs.flatMap lzCodes) = some left)
    (hc : ∀ b ∈ bs, ∀ r, Code.reference r ∈ lzCodes b → r.dist.toNat < 32768)
    (ht : ∀ x ∈ refTrace st (st.insert.getD 65535) (window h ++ done ++ left) (window h ++ done).length [] (bs.flatMap lzCodes), x = .correct)
    (hm : FileGuessed st (h ++ (done ++ left)) more) : FileGuessed st (h ++ done) (bs ++ more) := by
  induction bs generalizing done left with
  | nil =>
    cases hx
    rw [List.append_nil] at hm
    exact hm
  | cons b bs ih =>
    rw [List.flatMap_cons] at hx ht hi
    rw [lzExpand_append] at hx
    cases hu : lzExpand 32768 (h ++ done) (lzCodes b) with
    | none => rw [hu] at hx; cases hx
    | some u =>
      rw [hu] at hx
      dsimp only at hx
      cases hv : lzExpand 32768 (h ++ done ++ u) (bs.flatMap lzCodes) with
      | none => rw [hv] at hx; cases hx
      | some v =>
        rw [hv] at hx
        obtain rfl : u ++ v = left := Option.some.inj hx
        rw [refTrace_append _ _ _ _ _ hi, sum_of_expand hu] at ht
        refine .cons _ b _ u (hs b (by simp)) hu ?_ ?_
        · show ∀ x ∈ refTrace st (st.insert.getD 65535) (window (h ++ done) ++ u) (window (h ++ done)).length [] (lzCodes b),
            x = .correct
          rw [window_append]
          exact part hn hi.left (sum_of_expand hu) (hc b (by simp)) ht.1
        · rw [List.append_assoc] at hv ⊢
          refine ih hi.right (done ++ u) v (fun b hb => hs b (List.mem_cons_of_mem _ hb)) hv
            (fun b hb => hc b (List.mem_cons_of_mem _ hb)) ?_ ?_
          · have := ht.2
            rw [← List.append_assoc, ← List.length_append, List.append_assoc (window h)] at this
            exact this
          · rw [List.append_assoc]
            exact hm

/-- Every block of a guessed file cut into blocks. -/
theorem guessed_cut {st : Settings} (hn : 3 < st.nice) {h : List UInt8} {blocks : List Block}
    (hg : FileGuessed st h blocks) (parts : List (List Block))
    (hp : parts.map (fun p => p.flatMap lzCodes) = blocks.map lzCodes) (hi : ∀ b ∈ parts.flatten, Shown st (lzCodes b))
    (hs : ∀ b ∈ parts.flatten, ∀ d, b ≠ .uncompressed d)
    (hc : ∀ b ∈ parts.flatten, ∀ r, Code.reference r ∈ lzCodes b → r.dist.toNat < 32768) :
    FileGuessed st h parts.flatten := by
  induction hg generalizing parts with
  | nil h =>
    rw [List.map_nil, List.map_eq_nil_iff] at hp
    subst hp
    exact .nil _
  | cons h b bs u hb hu ht hrest ih =>
    cases parts with
    | nil => cases hp
    | cons p parts =>
      rw [List.map_cons, List.map_cons, List.cons.injEq] at hp
      rw [List.flatten_cons] at hs hc hi ⊢
      have hm := ih parts hp.2 (fun b hb => hi b (List.mem_append.2 (.inr hb))) (fun b hb => hs b (List.mem_append.2 (.inr hb)))
        (fun b hb => hc b (List.mem_append.2 (.inr hb)))
      have := guessed_parts hn (h := h) (more := parts.flatten) p (fun r hr => by
          obtain ⟨b, hb, hr⟩ := List.mem_flatMap.1 hr
          exact hi b (List.mem_append.2 (.inl hb)) r hr) [] u
        (fun b hb => hs b (List.mem_append.2 (.inl hb)))
        (by rw [List.append_nil, hp.1]; exact hu) (fun b hb => hc b (List.mem_append.2 (.inl hb)))
        (by
          rw [List.append_nil, hp.1]
          exact ht) hm
      rw [List.append_nil] at this
      exact this

theorem slow_nice {level : Nat} (h4 : 4 ≤ level) (h9 : level ≤ 9) :
    ∃ st, gzipSettings level = some st ∧ st.insert = none ∧ 3 < st.nice := by
  have : level = 4 ∨ level = 5 ∨ level = 6 ∨ level = 7 ∨ level = 8 ∨ level = 9 := by omega
  rcases this with rfl | rfl | rfl | rfl | rfl | rfl <;> exact ⟨_, rfl, rfl, by decide⟩

theorem fast_nice {level insert : Nat} (h1 : 1 ≤ level) (h3 : level ≤ 3) (hin : insert = level + 3) :
    ∃ st, gzipSettings level = some st ∧ st.insert = some insert ∧ 3 < st.nice := by
  have : level = 1 ∨ level = 2 ∨ level = 3 := by omega
  rcases this with rfl | rfl | rfl <;> subst hin <;> exact ⟨_, rfl, rfl, by decide⟩

/-- The check passes for a guessed file that is cut, if no position is hidden. -/
theorem cut_any (p' : Profile) (level : Nat) (st : Settings) (hst : gzipSettings level = some st) (hn : 3 < st.nice)
    (hd' : GzHeader) (hv' : hd'.Valid) (d' rest' : List UInt8) (blocks : List Block) (parts : List (List Block))
    (hdef' : DeflateBytes parts.flatten d') (hp : parts.map (fun p => p.flatMap lzCodes) = blocks.map lzCodes)
    (hi : ∀ b ∈ parts.flatten, Shown st (lzCodes b)) (hs : ∀ b ∈ parts.flatten, ∀ x, b ≠ .uncompressed x)
    (hc : ∀ b ∈ parts.flatten, ∀ r, Code.reference r ∈ lzCodes b → r.dist ≠ 32768) (hg : FileGuessed st [] blocks) :
    RunGzip.tryGzip p' level (hd'.bytes ++ d' ++ rest') = .ok () := by
  refine (C88_try_gzip p' level _).2 ⟨st, hd', d', rest', parts.flatten, hst, hv', rfl, hdef',
    guessed_cut hn hg parts hp hi hs ?_⟩
  have hle : ∀ (h : List UInt8) (blocks : List Block), FileGuessed st h blocks → ∀ cs ∈ blocks.map lzCodes, ∀ r,
      Code.reference r ∈ cs → r.dist.toNat ≤ 32768 := by
    intro h blocks hg
    induction hg with
    | nil h => intro cs hcs; cases hcs
    | cons h b bs u hb hu ht hrest ih =>
      intro cs hcs r hr
      rw [List.map_cons] at hcs
      rcases List.mem_cons.1 hcs with rfl | hcs
      · exact GzipDeflate.expand_near hu r hr
      · exact ih cs hcs r hr
  intro b hb r hr
  obtain ⟨q, hq, hbq⟩ := List.mem_flatten.1 hb
  have h1 := hle [] blocks hg (q.flatMap lzCodes) (by rw [← hp]; exact List.mem_map.2 ⟨q, hq, rfl⟩) r
    (List.mem_flatMap.2 ⟨b, hbq, hr⟩)
  have h2 := hc b hb r hr
  have : r.dist.toNat ≠ 32768 := by
    intro e
    apply h2
    rw [← UInt16.toNat_inj, e]
    rfl
  omega

end Cut

/-- C120. At levels 4 to 9 a recognised file stays recognised when its blocks are cut into any number of compressed blocks,
of whatever kind, unless a reference is exactly 32768 back. Headers and what follows may change too. -/
theorem C120_cut (p p' : Profile) (level : Nat) (h4 : 4 ≤ level) (h9 : level ≤ 9) (hd hd' : GzHeader) (hv : hd.Valid)
    (hv' : hd'.Valid) (d rest d' rest' : List UInt8) (blocks : List Block) (parts : List (List Block))
    (hdef : DeflateBytes blocks d) (hdef' : DeflateBytes parts.flatten d')
    (hp : parts.map (fun p => p.flatMap lzCodes) = blocks.map lzCodes)
    (hs : ∀ b ∈ parts.flatten, ∀ x, b ≠ .uncompressed x)
    (hc : ∀ b ∈ parts.flatten, ∀ r, Code.reference r ∈ lzCodes b → r.dist ≠ 32768)
    (h : RunGzip.tryGzip p level (hd.bytes ++ d ++ rest) = .ok ()) :
    RunGzip.tryGzip p' level (hd'.bytes ++ d' ++ rest') = .ok () := by
  obtain ⟨st, hst, hg⟩ := guessed_of_try p level hd hv d rest blocks hdef h
  obtain ⟨st', hst', hi, hn⟩ := Cut.slow_nice h4 h9
  rw [hst] at hst'
  cases hst'
  exact Cut.cut_any p' level st hst hn hd' hv' d' rest' blocks parts hdef' hp (fun b _ => .of_none hi _) hs hc hg

/-- C120 at levels 1 to 3, if no reference is longer than `max_insert`, which is 4, 5 or 6: then nothing is hidden. -/
theorem C120_short (p p' : Profile) (level : Nat) (h1 : 1 ≤ level) (h3 : level ≤ 3) (hd hd' : GzHeader) (hv : hd.Valid)
    (hv' : hd'.Valid) (d rest d' rest' : List UInt8) (blocks : List Block) (parts : List (List Block))
    (hdef : DeflateBytes blocks d) (hdef' : DeflateBytes parts.flatten d')
    (hp : parts.map (fun p => p.flatMap lzCodes) = blocks.map lzCodes)
    (hs : ∀ b ∈ parts.flatten, ∀ x, b ≠ .uncompressed x)
    (hc : ∀ b ∈ parts.flatten, ∀ r, Code.reference r ∈ lzCodes b → r.dist ≠ 32768 ∧ r.run ≤ level + 3)
    (h : RunGzip.tryGzip p level (hd.bytes ++ d ++ rest) = .ok ()) :
    RunGzip.tryGzip p' level (hd'.bytes ++ d' ++ rest') = .ok () := by
  obtain ⟨st, hst, hg⟩ := guessed_of_try p level hd hv d rest blocks hdef h
  obtain ⟨st', hst', hi, hn⟩ := Cut.fast_nice h1 h3 rfl
  rw [hst] at hst'
  cases hst'
  refine Cut.cut_any p' level st hst hn hd' hv' d' rest' blocks parts hdef' hp (fun b hb r hr l hl => ?_) hs
    (fun b hb r hr => (hc b hb r hr).1) hg
  rw [hi] at hl
  cases hl
  exact (hc b hb r hr).2

/-- C119 for files of several blocks, at levels 4 to 9: wherever gzip cuts its codes into compressed blocks, they are
recognised if they are as one block. -/
theorem C119_blocks (p : Profile) (level : Nat) (h4 : 4 ≤ level) (h9 : level ≤ 9) (data : List UInt8)
    (hr : Recognised level data) (hd : GzHeader) (hv : hd.Valid) (blocks : List Block)
    (hs : ∀ b ∈ blocks, ∀ x, b ≠ .uncompressed x) (hc : blocks.flatMap lzCodes = GzipDeflate.codes level data)
    (d rest : List UInt8) (hdef : DeflateBytes blocks d) : RunGzip.tryGzip p level (hd.bytes ++ d ++ rest) = .ok () := by
  obtain ⟨st, hst, hi, hn⟩ := Cut.slow_nice h4 h9
  have he := codes_expand (by omega) h9 data
  obtain ⟨tr, h1, h2⟩ := hr
  rw [C70_try_gzip level st hst data _ he] at h1
  cases h1
  refine (C88_try_gzip p level _).2 ⟨st, hd, d, rest, blocks, hst, hv, rfl, hdef, ?_⟩
  have := Cut.guessed_parts hn (h := []) (more := []) blocks (.of_none hi _) [] data hs (by rw [hc]; exact he)
    (by
      intro b hb r hr
      have := GzipDeflate.expand_near (C119_gzip_bytes level (by omega) h9 data) r
        (by rw [← hc]; exact List.mem_flatMap.2 ⟨b, hb, hr⟩)
      omega)
    (by
      rw [hc]
      exact h2) (.nil _)
  rw [List.append_nil, List.append_nil] at this
  exact this

/-- The codes of a file of one block, `xabcdefgYabcdefgZbcdefQ`. -/
def cutOne : List UInt8 := [171, 72, 76, 74, 78, 73, 77, 75, 143, 132, 210, 81, 96, 110, 32, 0]

/-- The same codes in two blocks. -/
def cutTwo : List UInt8 := [170, 72, 76, 74, 78, 73, 77, 75, 143, 132, 210, 81, 128, 129, 185, 129, 0]

theorem cut_parse :
    parseAll cutOne = .ok ([.fixedHuffman [.literal 120, .literal 97, .literal 98, .literal 99, .literal 100, .literal 101,
      .literal 102, .literal 103, .literal 89, .reference ⟨8, 4⟩, .literal 90, .reference ⟨15, 2⟩, .literal 81]], []) ∧
    parseAll cutTwo = .ok ([.fixedHuffman [.literal 120, .literal 97, .literal 98, .literal 99, .literal 100, .literal 101,
      .literal 102, .literal 103, .literal 89, .reference ⟨8, 4⟩, .literal 90],
      .fixedHuffman [.reference ⟨15, 2⟩, .literal 81]], []) := by decide +kernel

/-- C120 is false of levels 1 to 3: what is hidden inside a long match is forgotten at the end of a block. The same codes are
recognised as one block and not as two. -/
theorem C120_not_fast (level : Nat) (h1 : 1 ≤ level) (h3 : level ≤ 3) :
    ∃ (d d' : List UInt8) (blocks blocks' : List Block), DeflateBytes blocks d ∧ DeflateBytes blocks' d' ∧
      blocks.flatMap lzCodes = blocks'.flatMap lzCodes ∧ RunGzip.tryGzip .dev level (exampleGz ++ d) = .ok () ∧
      RunGzip.tryGzip .dev level (exampleGz ++ d') = .error (.panic .explicit) := by
  obtain ⟨d, e, hd⟩ := (parseAll_iff _ _ _).1 cut_parse.1
  obtain ⟨d', e', hd'⟩ := (parseAll_iff _ _ _).1 cut_parse.2
  rw [List.append_nil] at e e'
  subst e e'
  refine ⟨_, _, _, _, hd, hd', rfl, ?_⟩
  have : level = 1 ∨ level = 2 ∨ level = 3 := by omega
  rcases this with rfl | rfl | rfl <;> decide +kernel

/-- `xabcdYab` and `cd` as literals, in two blocks. -/
def joinTwo : List UInt8 := [170, 72, 76, 74, 78, 137, 76, 76, 2, 44, 57, 5, 0]

/-- The same as one block. -/
def joinOne : List UInt8 := [171, 72, 76, 74, 78, 137, 76, 76, 74, 78, 1, 0]

theorem join_parse :
    parseAll joinTwo = .ok ([.fixedHuffman ([120, 97, 98, 99, 100, 89, 97, 98].map .literal),
      .fixedHuffman [.literal 99, .literal 100]], []) ∧
    parseAll joinOne = .ok ([.fixedHuffman ([120, 97, 98, 99, 100, 89, 97, 98, 99, 100].map .literal)], []) := by
  decide +kernel

/-- C120. Not the other way round, at any level: a match that would go past the end of a block is only guessed once the
blocks are joined. -/
theorem C120_not_join (level : Nat) (h1 : 1 ≤ level) (h9 : level ≤ 9) :
    ∃ (d d' : List UInt8) (blocks blocks' : List Block), DeflateBytes blocks d ∧ DeflateBytes blocks' d' ∧
      blocks.flatMap lzCodes = blocks'.flatMap lzCodes ∧ blocks'.length = 1 ∧
      RunGzip.tryGzip .dev level (exampleGz ++ d) = .ok () ∧
      RunGzip.tryGzip .dev level (exampleGz ++ d') = .error (.panic .explicit) := by
  obtain ⟨d, e, hd⟩ := (parseAll_iff _ _ _).1 join_parse.1
  obtain ⟨d', e', hd'⟩ := (parseAll_iff _ _ _).1 join_parse.2
  rw [List.append_nil] at e e'
  subst e e'
  refine ⟨_, _, _, _, hd, hd', rfl, rfl, ?_⟩
  have : level = 1 ∨ level = 2 ∨ level = 3 ∨ level = 4 ∨ level = 5 ∨ level = 6 ∨ level = 7 ∨ level = 8 ∨ level = 9 := by
    omega
  rcases this with rfl | rfl | rfl | rfl | rfl | rfl | rfl | rfl | rfl <;> decide +kernel

/-- `zabcdefabc1abcdef` at level 6, as one block and cut into two: both are recognised. -/
example :
    RunGzip.tryGzip .dev 6 (exampleGz ++ [171, 74, 76, 74, 78, 73, 77, 3, 146, 134, 16, 22, 0]) = .ok () ∧
    RunGzip.tryGzip .dev 6 (exampleGz ++ [170, 74, 76, 74, 78, 73, 77, 3, 146, 128, 25, 66, 88, 0]) = .ok () := by
  decide +kernel

/-- The codes of `zabcd1abc2abcd` at level 1, as one block and cut before the last reference: no reference is longer than 4,
and both are recognised. -/
example :
    RunGzip.tryGzip .dev 1 (exampleGz ++ [171, 74, 76, 74, 78, 49, 4, 18, 70, 32, 6, 0]) = .ok () ∧
    RunGzip.tryGzip .dev 1 (exampleGz ++ [170, 74, 76, 74, 78, 49, 4, 18, 70, 128, 129, 24, 0]) = .ok () := by
  decide +kernel

end Rezip
