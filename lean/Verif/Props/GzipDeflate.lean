import Verif.Lemmas.GzipDeflate
import Verif.Props.Runs
import Verif.Props.Fuzz

/-!
# C119: what gzip writes is recognised

The codes are those of `Spec.GzipDeflate.codes`, gzip's own choice. As a claim about all data and all levels it is
false; at level 1 it is true of data that is `Clear` and `Near`. `Clear` is a condition on data with zero bytes only: the
last three bytes do not occur right before a zero byte, unless at the start. `Near` is a condition on data of more than 32507 bytes only:
positions where the same hash occurs again are less than 32506 apart.
-/

namespace Rezip

open Spec GzipDeflate Parse Serialise

/-- C119. The codes that gzip chooses stand for the data, at every level, and no reference is more than 32506 back. -/
theorem C119_gzip_bytes (level : Nat) (h1 : 1 ≤ level) (h9 : level ≤ 9) (data : List UInt8) :
    lzExpand 32506 [] (codes level data) = some data := by
  have hf := fun nice insert chain => fast_expand nice insert chain data data.length 0 empty Below.empty (Nat.zero_le _)
    (by omega)
  have hs := fun good maxLazy nice chain => slow_expand good maxLazy nice chain data (data.length + 1) 0 empty 2 0 false
    Below.empty (Nat.zero_le _) (by omega) (by simp) (by omega)
  have : level = 1 ∨ level = 2 ∨ level = 3 ∨ level = 4 ∨ level = 5 ∨ level = 6 ∨ level = 7 ∨ level = 8 ∨ level = 9 := by
    omega
  rcases this with rfl | rfl | rfl | rfl | rfl | rfl | rfl | rfl | rfl
  · exact hf 8 4 4
  · exact hf 16 5 8
  · exact hf 32 6 32
  · exact hs 4 4 16 16
  · exact hs 8 16 32 32
  · exact hs 8 16 128 128
  · exact hs 8 32 128 256
  · exact hs 32 128 258 1024
  · exact hs 32 258 258 4096

theorem codes_expand {level : Nat} (h1 : 1 ≤ level) (h9 : level ≤ 9) (data : List UInt8) :
    lzExpand 32768 [] (codes level data) = some data :=
  expand_mono (by decide) (C119_gzip_bytes level h1 h9 data)

/-- The row of levels 1 to 3: `max_insert`, `nice_length` and `max_chain`. -/
theorem fast_row {level : Nat} (h1 : 1 ≤ level) (h3 : level ≤ 3) :
    ∃ good insert nice chain, gzipTable[level - 1]? = some (good, insert, nice, chain) ∧ insert ≤ chain ∧
      gzipSettings level = some { nice := nice, chain := chain, dropFar := false, insert := some insert } := by
  have : level = 1 ∨ level = 2 ∨ level = 3 := by omega
  rcases this with rfl | rfl | rfl <;> exact ⟨_, _, _, _, rfl, by decide, rfl⟩

/-- C119, at levels 1 to 3, for `Clear` and `Near` data: the codes that are predicted are
exactly the ones that gzip would choose if it searched `max_insert` positions (4, 5, 6), not `max_chain` (4, 8, 32). -/
theorem C119_fast (level : Nat) (h1 : 1 ≤ level) (h3 : level ≤ 3) (good insert nice chain : Nat)
    (hrow : gzipTable[level - 1]? = some (good, insert, nice, chain)) (data : List UInt8) (hz : Clear data)
    (hn : Near data) (cs : List Code) (hc : lzExpand 32768 [] cs = some data) :
    (∃ tr, Tracer.tryGzip level [] data cs = .ok tr ∧ ∀ x ∈ tr, x = .correct) ↔
      cs = fast nice insert insert data data.length 0 empty := by
  obtain ⟨_, _, _, _, hrow', hle, hst⟩ := fast_row h1 h3
  rw [hrow] at hrow'
  cases hrow'
  refine Runs.only hst ?_ hc ?_
  · refine expand_mono (W := maxDist) (by decide) ?_
    exact fast_expand nice insert insert data data.length 0 empty Below.empty (Nat.zero_le _) (by omega)
  · exact (fast_trace hz hn hle rfl rfl data.length 0 empty [] (Holds.empty data) (Nat.zero_le _) (by omega)).1

/-- C119 at level 1, for `Clear` and `Near` data: every code that gzip chooses is predicted.
What is missing: other levels (`C119_fast`, `C119_not_lazy`), zero bytes (`C119_not_zero`) and longer
data (`C119_not_far`). -/
theorem C119_recognised_partial (data : List UInt8) (hz : Clear data) (hn : Near data) :
    Tracer.tryGzip 1 [] data (codes 1 data) = .ok (List.replicate (codes 1 data).length .correct) := by
  rw [C70_try_gzip 1 _ rfl data (codes 1 data) (codes_expand (by decide) (by decide) data)]
  exact congrArg _ (fast_trace (st := ⟨8, 4, false, some 4⟩) (search := 4) (l := 4) hz hn (by decide) rfl rfl
    data.length 0 empty [] (Holds.empty data) (Nat.zero_le _) (by omega)).1

/-- C119 at level 1, for data without zero bytes of at most 32507 bytes. -/
theorem C119_short_partial (data : List UInt8) (hz : 0 ∉ data) (hn : data.length ≤ 32507) :
    Tracer.tryGzip 1 [] data (codes 1 data) = .ok (List.replicate (codes 1 data).length .correct) :=
  C119_recognised_partial data (clear_of_nonzero hz) (near_of_short hn)

/-- C119 for files: if a compressed block has these codes, the file is recognised as made by level 1. -/
theorem C119_file_partial (p : Profile) (data : List UInt8) (hz : Clear data) (hn : Near data) (hd : GzHeader)
    (hv : hd.Valid) (block : Block) (hb : ∀ x, block ≠ .uncompressed x) (hc : lzCodes block = codes 1 data)
    (d rest : List UInt8) (hdef : DeflateBytes [block] d) :
    RunGzip.tryGzip p 1 (hd.bytes ++ d ++ rest) = .ok () := by
  refine (C88_try_gzip p 1 _).2 ⟨_, hd, d, rest, [block], rfl, hv, rfl, hdef, ?_⟩
  refine .cons [] block [] data hb ?_ ?_ (.nil _)
  · rw [hc]
    exact codes_expand (by decide) (by decide) data
  · intro x hx
    rw [hc] at hx
    have h := C119_recognised_partial data hz hn
    rw [C70_try_gzip 1 _ rfl data (codes 1 data) (codes_expand (by decide) (by decide) data)] at h
    have hx : x ∈ refTrace ⟨8, 4, false, some 4⟩ 4 data 0 [] (codes 1 data) := hx
    rw [show refTrace ⟨8, 4, false, some 4⟩ 4 data 0 [] (codes 1 data) =
      List.replicate (codes 1 data).length .correct from Except.ok.inj h] at hx
    exact (List.mem_replicate.1 hx).2

/-- A run of exec_gzip.rs when the first block is a compressed one. -/
theorem execGzip_eq {gzip : List UInt8 → List UInt8} {data hd d tail : List UInt8} {b : Block} {bs : List Block}
    (hne : data ≠ []) (hg : gzip data = hd ++ d ++ tail) (h10 : hd.length = 10) (h8 : tail.length = 8)
    (hdef : DeflateBytes (b :: bs) d) (hb : ∀ x, b ≠ .uncompressed x) :
    Fuzz.execGzip gzip data = (Tracer.tryGzip 1 [] data (lzCodes b) >>= fun slice =>
      if slice.all (Trace.correct == ·) then .ok () else .error (.panic .explicit)) := by
  have hemp : data.isEmpty = false := by cases data with
    | nil => exact absurd rfl hne
    | cons => rfl
  unfold Fuzz.execGzip
  rw [hemp, if_neg Bool.false_ne_true, hg, Fuzz.body_eq hd d tail h10 h8, Ex.ok_bind, Fuzz.firstBlock_deflate hdef,
    Ex.ok_bind]
  rcases Fuzz.codesOf_eq b with ⟨_, x, h2⟩ | ⟨h1, _⟩
  · exact absurd h2 (hb x)
  · rw [h1]

/-- C119 for the fuzz target exec_gzip.rs: with gzip, which writes a block with these codes, it finds nothing among the
data that is `Clear` and `Near`. -/
theorem C119_fuzz_partial (data : List UInt8) (hz : Clear data) (hn : Near data) (hne : data ≠ [])
    (gzip : List UInt8 → List UInt8) (hd d tail : List UInt8) (hg : gzip data = hd ++ d ++ tail) (h10 : hd.length = 10)
    (h8 : tail.length = 8) (block : Block) (hdef : DeflateBytes [block] d)
    (hc : (∃ x, block = .uncompressed x) ∨ lzCodes block = codes 1 data) :
    Fuzz.execGzip gzip data = .ok () := by
  by_cases hb : ∀ x, block ≠ .uncompressed x
  · rcases hc with ⟨x, hx⟩ | hc
    · exact absurd hx (hb x)
    · rw [execGzip_eq hne hg h10 h8 hdef hb, hc, C119_recognised_partial data hz hn, Ex.ok_bind, if_pos]
      exact (Fuzz.all_correct _).2 fun t ht => (List.mem_replicate.1 ht).2
  · have : ∃ x, block = .uncompressed x := by
      apply Classical.byContradiction
      intro h
      exact hb fun x hx => h ⟨x, hx⟩
    obtain ⟨x, rfl⟩ := this
    have hemp : data.isEmpty = false := by cases data with
      | nil => exact absurd rfl hne
      | cons => rfl
    unfold Fuzz.execGzip
    rw [hemp, if_neg Bool.false_ne_true, hg, Fuzz.body_eq hd d tail h10 h8, Ex.ok_bind, Fuzz.firstBlock_deflate hdef,
      Ex.ok_bind]
    rfl

/-- Not all of the codes that gzip chooses for the data are predicted. -/
def Unrecognised (level : Nat) (data : List UInt8) : Prop :=
  ∃ tr, Tracer.tryGzip level [] data (codes level data) = .ok tr ∧ ∃ x ∈ tr, x ≠ .correct

theorem unrecognised {level : Nat} {data : List UInt8}
    (h : (match Tracer.tryGzip level [] data (codes level data) with
      | .ok tr => tr.any fun x => x != .correct
      | .error _ => false) = true) : Unrecognised level data := by
  cases e : Tracer.tryGzip level [] data (codes level data) with
  | error _ => rw [e] at h; cases h
  | ok tr =>
    rw [e] at h
    obtain ⟨x, hx, hne⟩ := List.any_eq_true.1 h
    exact ⟨tr, e, x, hx, by simpa using hne⟩

/-- C119 is false of data with a zero byte, already at level 1: `xabc`, a zero byte, `abcdabc`. gzip compares past the
end of the data, where its window is zero, so that the farther `abc` is the longer match; it is cut back to three
bytes after it has been chosen. -/
theorem C119_not_zero : Unrecognised 1 [120, 97, 98, 99, 0, 97, 98, 99, 100, 97, 98, 99] :=
  unrecognised (by decide +kernel)

/-- The fuzz target exec_gzip.rs finds this, and anything else that is not recognised at level 1. -/
theorem C119_fuzz_finds (data : List UInt8) (hu : Unrecognised 1 data) (hne : data ≠ [])
    (gzip : List UInt8 → List UInt8) (hd d tail : List UInt8) (hg : gzip data = hd ++ d ++ tail) (h10 : hd.length = 10)
    (h8 : tail.length = 8) (block : Block) (hdef : DeflateBytes [block] d) (hb : ∀ x, block ≠ .uncompressed x)
    (hc : lzCodes block = codes 1 data) : Fuzz.execGzip gzip data = .error (.panic .explicit) := by
  obtain ⟨tr, h1, x, hx, hne'⟩ := hu
  rw [execGzip_eq hne hg h10 h8 hdef hb, hc, h1, Ex.ok_bind, if_neg]
  intro h
  exact hne' ((Fuzz.all_correct tr).1 h x hx)

/-- C119 is false of level 2: gzip searches eight positions, the tracer five.
`zabcdefabc1abc2abc3abc4abc5abcdef`. -/
theorem C119_not_two : Unrecognised 2 [122, 97, 98, 99, 100, 101, 102, 97, 98, 99, 49, 97, 98, 99, 50, 97, 98, 99, 51, 97,
    98, 99, 52, 97, 98, 99, 53, 97, 98, 99, 100, 101, 102] :=
  unrecognised (by decide +kernel)

/-- C119 is false of level 3: gzip searches 32 positions, the tracer six.
`zabcdefabc1abc2abc3abc4abc5abc6abcdef`. -/
theorem C119_not_three : Unrecognised 3 [122, 97, 98, 99, 100, 101, 102, 97, 98, 99, 49, 97, 98, 99, 50, 97, 98, 99, 51,
    97, 98, 99, 52, 97, 98, 99, 53, 97, 98, 99, 54, 97, 98, 99, 100, 101, 102] :=
  unrecognised (by decide +kernel)

/-- C119 is false of levels 4 to 9, where gzip prefers a longer match at the next byte: `xabcbcdeYabcde`. -/
theorem C119_not_lazy (level : Nat) (h4 : 4 ≤ level) (h9 : level ≤ 9) :
    Unrecognised level [120, 97, 98, 99, 98, 99, 100, 101, 89, 97, 98, 99, 100, 101] := by
  have : level = 4 ∨ level = 5 ∨ level = 6 ∨ level = 7 ∨ level = 8 ∨ level = 9 := by omega
  rcases this with rfl | rfl | rfl | rfl | rfl | rfl <;> exact unrecognised (by decide +kernel)

/-- C119 is false, at every level, of longer data: gzip does not look farther back than 32506 bytes, the tracer looks
32768 bytes back. `farData n` has no zero bytes, and the only match for its last four bytes is `n + 3` back. -/
theorem C119_not_far (level : Nat) (h1 : 1 ≤ level) (h9 : level ≤ 9) (n : Nat) (hn : 32504 ≤ n) (hn2 : n ≤ 32765) :
    Unrecognised level (farData n) := by
  obtain ⟨st, hst⟩ := gzipSettings_some ⟨h1, h9⟩
  have hpos : 0 < st.insert.getD 65535 ∧ 0 < st.chain := by
    have : level = 1 ∨ level = 2 ∨ level = 3 ∨ level = 4 ∨ level = 5 ∨ level = 6 ∨ level = 7 ∨ level = 8 ∨ level = 9 := by
      omega
    rcases this with rfl | rfl | rfl | rfl | rfl | rfl | rfl | rfl | rfl <;> cases hst <;> decide
  have he := codes_expand h1 h9 (farData n)
  refine ⟨_, C70_try_gzip level st hst (farData n) _ he, ?_⟩
  apply Classical.byContradiction
  intro hno
  obtain ⟨r, hr, hd⟩ := farData_trace (st := st) hpos.1 hpos.2 (n := n) (by omega) (by omega) (codes level (farData n)) 0 []
    (by omega) (by simp) (by rw [sum_of_expand he, farData_length]; rfl) (by
      intro x hx
      apply Classical.byContradiction
      intro hx'
      exact hno ⟨x, hx, hx'⟩)
  have := expand_near (C119_gzip_bytes level h1 h9 (farData n)) r hr
  omega

theorem sameHash_third {w : List UInt8} {j p : Nat} (h : sameHash w j p = true) :
    ∃ a b, w[j + 2]? = some a ∧ w[p + 2]? = some b ∧ a.toNat % 32 = b.toNat % 32 := by
  have third : ∀ i x y z, three w i = some (x, y, z) → w[i + 2]? = some z := by
    intro i x y z h
    unfold three at h
    rw [← List.getElem?_drop]
    match hw : w.drop i, h with
    | _ :: _ :: _ :: _, h => cases h; rfl
  unfold sameHash at h
  cases hj : three w j with
  | none => rw [hj] at h; cases h
  | some a =>
    cases hp : three w p with
    | none => rw [hj, hp] at h; cases h
    | some b =>
      rw [hj, hp] at h
      obtain ⟨x, y, z⟩ := a
      obtain ⟨x', y', z'⟩ := b
      refine ⟨z, z', third j x y z hj, third p x' y' z' hp, ?_⟩
      have e : gzipHash x y z = gzipHash x' y' z' := beq_iff_eq.1 h
      have h1 := (hash_digits x y z).1
      have h2 := (hash_digits x' y' z').1
      rw [e, h2] at h1
      exact h1.symm

/-- 40000 bytes that meet the hypotheses. -/
example (n : Nat) (hn : n = 20000) (data : List UInt8) (hd : data = List.replicate n 7 ++ List.replicate n 8) :
    Near data ∧ Clear data ∧ data.length = 40000 := by
  subst hd
  refine ⟨?_, clear_of_nonzero (by simp), by simp; omega⟩
  intro j p _ hj h
  obtain ⟨a, b, ha, hb, e⟩ := sameHash_third h
  have hp := lt_of_getElem? hb
  rw [List.length_append, List.length_replicate, List.length_replicate] at hp
  unfold maxDist
  apply Decidable.byContradiction
  intro hno
  rw [List.getElem?_append_left (by simp; omega), List.getElem?_replicate, if_pos (by omega)] at ha
  rw [List.getElem?_append_right (by simp; omega), List.getElem?_replicate, List.length_replicate, if_pos (by omega)] at hb
  cases ha
  cases hb
  exact absurd e (by decide)

/-- `zabcdefabc1abcdef` at level 1, with two references: the second is to the farther of two positions. -/
example : codes 1 [122, 97, 98, 99, 100, 101, 102, 97, 98, 99, 49, 97, 98, 99, 100, 101, 102] =
    [.literal 122, .literal 97, .literal 98, .literal 99, .literal 100, .literal 101, .literal 102,
      .reference ⟨6, 0⟩, .literal 49, .reference ⟨10, 3⟩] := by decide +kernel

/-- Such data meets the hypotheses. -/
example : Tracer.tryGzip 1 [] [122, 97, 98, 99, 100, 101, 102, 97, 98, 99, 49, 97, 98, 99, 100, 101, 102]
    (codes 1 [122, 97, 98, 99, 100, 101, 102, 97, 98, 99, 49, 97, 98, 99, 100, 101, 102]) =
    .ok (List.replicate 10 .correct) := by
  rw [C119_short_partial _ (by decide) (by decide)]
  decide +kernel

/-- Data with zero bytes meets them too, if it does not end like the bytes before one of them: `abc`, a zero byte, `abcd`,
a zero byte, `abce`. -/
example : Clear [97, 98, 99, 0, 97, 98, 99, 100, 0, 97, 98, 99, 101] := by
  intro z h3 hz
  have : z = 3 ∨ z = 8 ∨ (z ≠ 3 ∧ z ≠ 8) := by omega
  rcases this with rfl | rfl | ⟨h, h'⟩
  · decide
  · decide
  · exfalso
    have hl : z < 13 := lt_of_getElem? hz
    have : z = 4 ∨ z = 5 ∨ z = 6 ∨ z = 7 ∨ z = 9 ∨ z = 10 ∨ z = 11 ∨ z = 12 := by omega
    rcases this with rfl | rfl | rfl | rfl | rfl | rfl | rfl | rfl <;> simp at hz

/-- At level 6 the lazy search gives other codes than at level 3. -/
example : codes 6 [120, 97, 98, 99, 98, 99, 100, 101, 89, 97, 98, 99, 100, 101] =
      [.literal 120, .literal 97, .literal 98, .literal 99, .literal 98, .literal 99, .literal 100, .literal 101,
        .literal 89, .literal 97, .reference ⟨6, 1⟩] ∧
    codes 3 [120, 97, 98, 99, 98, 99, 100, 101, 89, 97, 98, 99, 100, 101] =
      [.literal 120, .literal 97, .literal 98, .literal 99, .literal 98, .literal 99, .literal 100, .literal 101,
        .literal 89, .reference ⟨8, 0⟩, .literal 100, .literal 101] := by decide +kernel

/-- The files that gzip 1.12 writes (`gzip -n1` to `-n6`) for the data above: the first is recognised, with the zero byte,
at level 2, at level 3 and at level 6 they are not. -/
example :
    RunGzip.tryGzip .dev 1 [31, 139, 8, 0, 0, 0, 0, 0, 4, 3, 171, 74, 76, 74, 78, 73, 77, 3, 146, 134, 16, 22, 0, 52,
      2, 12, 50, 17, 0, 0, 0] =
      .ok () ∧
    RunGzip.tryGzip .dev 1 [31, 139, 8, 0, 0, 0, 0, 0, 4, 3, 171, 72, 76, 74, 102, 0, 226, 20, 32, 13, 0, 168, 13, 123,
      176, 12, 0, 0, 0] =
      .error (.panic .explicit) ∧
    RunGzip.tryGzip .dev 2 [31, 139, 8, 0, 0, 0, 0, 0, 0, 3, 171, 74, 76, 74, 78, 73, 77, 3, 146, 134, 64, 108, 4, 196,
      198, 64, 108, 2, 196, 166, 16, 25, 0, 109, 16, 96, 240, 33, 0, 0, 0] =
      .error (.panic .explicit) ∧
    RunGzip.tryGzip .dev 3 [31, 139, 8, 0, 0, 0, 0, 0, 0, 3, 171, 74, 76, 74, 78, 73, 77, 3, 146, 134, 64, 108, 4, 196,
      198, 64, 108, 2, 196, 166, 64, 108, 6, 145, 5, 0, 223, 182, 35, 44, 37, 0, 0, 0] =
      .error (.panic .explicit) ∧
    RunGzip.tryGzip .dev 6 [31, 139, 8, 0, 0, 0, 0, 0, 0, 3, 171, 72, 76, 74, 78, 74, 78, 73, 141, 76, 4, 145, 0, 169,
      7, 64, 131, 14, 0, 0, 0] =
      .error (.panic .explicit) := by
  decide +kernel

end Rezip
