import Verif.Model.Fuzz
import Verif.Props.TraceAny

/-!
# C95: what the fuzz targets check
-/

namespace Rezip

open Rezip.Spec

namespace Fuzz

theorem firstBlock_deflate {b : Block} {bs : List Block} {d : List UInt8} (h : DeflateBytes (b :: bs) d) :
    firstBlock d = .ok b := by
  obtain ⟨bits, hs, hb⟩ := h
  have hw : (Parse.parseDeflate d).inner.WF := BitReader.wf_new d
  have hbits : (Parse.parseDeflate d).inner.bits = padded bits := by
    rw [show (Parse.parseDeflate d).inner = BitReader.new d from rfl, BitReader.bits_new, hb]
  have hoff : (0 + (Parse.parseDeflate d).inner.bits.length) % 8 = 0 := by
    rw [hbits, ← hb, bytesBits_length]; omega
  have key : ∃ r f, (Parse.parseDeflate d).next = (some (.ok b), ⟨r, f⟩) := by
    cases hs with
    | last _ _ bs hbb =>
      obtain ⟨r, h1, _⟩ := Parse.next_block hw rfl hoff (f := true) (bs := bs)
        (rest := List.replicate (padLen (true :: bs).length) false) (by rw [hbits]; rfl) hbb
      exact ⟨r, _, h1⟩
    | cons _ _ _ bs rs hbb _ =>
      obtain ⟨r, h1, _⟩ := Parse.next_block hw rfl hoff (f := false) (bs := bs)
        (rest := rs ++ List.replicate (padLen (false :: bs ++ rs).length) false)
        (by rw [hbits, padded]; simp) hbb
      exact ⟨r, _, h1⟩
  obtain ⟨r, f, h⟩ := key
  rw [firstBlock, h]

theorem body_eq (hd d tail : List UInt8) (h1 : hd.length = 10) (h2 : tail.length = 8) :
    body (hd ++ d ++ tail) = .ok d := by
  have hl : (hd ++ d ++ tail).length = 18 + d.length := by simp; omega
  rw [body, if_neg (by omega), if_neg (by omega), hl,
    List.take_left' (by rw [List.length_append]; omega), List.drop_left' h1]

theorem body_error (file : List UInt8) : (∃ m, body file = .ok m) ∨ ∃ p, body file = .error (.panic p) := by
  unfold body
  split
  · exact .inr ⟨_, rfl⟩
  · split
    · exact .inr ⟨_, rfl⟩
    · exact .inl ⟨_, rfl⟩

end Fuzz

/-- For every data there is one code list that level 1 would have made, and tracing the codes of the first
block says whether it is that one. -/
theorem first_block_own (data : List UInt8) : ∃ own, lzExpand 32768 [] own = some data ∧
    ∀ codes x more, lzExpand 32768 [] codes = some x → x ++ more = data →
      (Tracer.tryGzip 1 [] data codes = .ok (List.replicate codes.length .correct) ∧ codes = own) ∨
      (x = data ∧ codes ≠ own ∧ ∃ tr, Tracer.tryGzip 1 [] data codes = .ok tr ∧
        ¬ ∀ t ∈ tr, t = Trace.correct) ∨
      (x ≠ data ∧ codes ≠ own ∧ ∃ p, Tracer.tryGzip 1 [] data codes = .error (.panic p)) := by
  obtain ⟨st, hst⟩ := gzipSettings_some (level := 1) ⟨by omega, by omega⟩
  obtain ⟨config, hc, hset, hg⟩ := gzip_settings hst
  obtain ⟨a, own, ha, he, ht, _, huniq⟩ := C89_own_codes config [] data (st.insert.getD 65535)
  refine ⟨own, he, ?_⟩
  intro codes x more hx hm
  by_cases hxd : x = data
  · subst hxd
    have hsum := sum_of_expand hx
    obtain ⟨config', a', hc', ha', ht'⟩ := C70_trace 1 st hst [] x (st.insert.getD 65535) codes hsum
    rw [hc] at hc'; cases hc'
    rw [ha] at ha'; cases ha'
    have hg := C70_try_gzip 1 st hst x codes hx
    by_cases hown : codes = own
    · left
      subst hown
      rw [ht] at ht'
      exact ⟨by rw [hg]; exact congrArg _ (Except.ok.inj ht').symm, rfl⟩
    · right; left
      refine ⟨rfl, hown, _, hg, ?_⟩
      intro hall
      exact hown (huniq codes _ hsum ht' hall)
  · right; right
    have hne : codes ≠ own := by
      intro h
      subst h
      rw [he] at hx
      exact hxd (Option.some.inj hx).symm
    refine ⟨hxd, hne, ?_⟩
    rcases C94_try_gzip 1 [] data codes with ⟨_, _, hr, _⟩ | ⟨_, h⟩
    · have h1 := hr.1
      have h2 := sum_of_expand hx
      have h3 : more ≠ [] := by
        intro h; rw [h, List.append_nil] at hm; exact hxd hm
      have h4 := List.length_pos_iff.2 h3
      rw [← hm, List.length_append] at h1
      omega
    · exact h

namespace Fuzz

theorem codesOf_eq (b : Block) : codesOf b = none ∧ (∃ x, b = .uncompressed x) ∨
    codesOf b = some (lzCodes b) ∧ ∀ x, b ≠ .uncompressed x := by
  cases b with
  | uncompressed x => exact .inl ⟨rfl, _, rfl⟩
  | fixedHuffman c => exact .inr ⟨rfl, by intro x h; cases h⟩
  | dynamicHuffman t c => exact .inr ⟨rfl, by intro x h; cases h⟩

theorem all_correct (tr : List Trace) : tr.all (Trace.correct == ·) = true ↔ ∀ t ∈ tr, t = Trace.correct := by
  rw [List.all_eq_true]
  exact ⟨fun h t ht => (beq_iff_eq.1 (h t ht)).symm, fun h t ht => by rw [h t ht]; rfl⟩

theorem expand_first {b : Block} {bs : List Block} {data : List UInt8}
    (h : lzExpand 32768 [] ((b :: bs).flatMap lzCodes) = some data) :
    ∃ x more, lzExpand 32768 [] (lzCodes b) = some x ∧ x ++ more = data := by
  rw [List.flatMap_cons, lzExpand_append] at h
  cases hx : lzExpand 32768 [] (lzCodes b) with
  | none => rw [hx] at h; cases h
  | some x =>
    rw [hx] at h
    dsimp only at h
    cases hy : lzExpand 32768 ([] ++ x) (bs.flatMap lzCodes) with
    | none => rw [hy] at h; cases h
    | some y =>
      rw [hy] at h
      exact ⟨x, y, rfl, Option.some.inj h⟩

end Fuzz

/-- C95. exec_gzip.rs, for any program in place of gzip that writes a header of ten bytes, a valid DEFLATE
stream for the data and eight more bytes: the run ends normally exactly if the first block is a stored one or
has the codes that level 1 would have made for all of the data, which are determined by the data. In every
other case it panics. -/
theorem C95_exec (data : List UInt8) (hne : data ≠ []) : ∃ own, lzExpand 32768 [] own = some data ∧
    ∀ (gzip : List UInt8 → List UInt8) (hd d tail : List UInt8) (b : Block) (bs : List Block),
      gzip data = hd ++ d ++ tail → hd.length = 10 → tail.length = 8 → DeflateBytes (b :: bs) d →
      lzExpand 32768 [] ((b :: bs).flatMap lzCodes) = some data →
      ((Fuzz.execGzip gzip data = .ok () ↔ (∃ x, b = .uncompressed x) ∨ lzCodes b = own) ∧
        (Fuzz.execGzip gzip data ≠ .ok () → ∃ p, Fuzz.execGzip gzip data = .error (.panic p))) := by
  obtain ⟨own, he, hown⟩ := first_block_own data
  refine ⟨own, he, ?_⟩
  intro gzip hd d tail b bs hf h10 h8 hdef hx
  obtain ⟨x, more, hx, hm⟩ := Fuzz.expand_first hx
  have hemp : data.isEmpty = false := by cases data with
    | nil => exact absurd rfl hne
    | cons => rfl
  unfold Fuzz.execGzip
  rw [hemp, if_neg Bool.false_ne_true, hf, Fuzz.body_eq hd d tail h10 h8, Ex.ok_bind, Fuzz.firstBlock_deflate hdef, Ex.ok_bind]
  rcases Fuzz.codesOf_eq b with ⟨h1, h2⟩ | ⟨h1, h2⟩
  · rw [h1]
    exact ⟨⟨fun _ => .inl h2, fun _ => rfl⟩, fun h => absurd rfl h⟩
  · rw [h1]
    have hb : ¬ ∃ x, b = .uncompressed x := fun ⟨x, hx⟩ => h2 x hx
    rcases hown (lzCodes b) x more hx hm with ⟨ht, ho⟩ | ⟨_, ho, tr, ht, hn⟩ | ⟨_, ho, p, ht⟩
    · dsimp only
      rw [ht, Ex.ok_bind, if_pos ((Fuzz.all_correct _).2 fun t ht => (List.mem_replicate.1 ht).2)]
      exact ⟨⟨fun _ => .inr ho, fun _ => rfl⟩, fun h => absurd rfl h⟩
    · dsimp only
      rw [ht, Ex.ok_bind, if_neg (fun h => hn ((Fuzz.all_correct _).1 h))]
      exact ⟨⟨fun h => (by cases h), fun h => (h.elim (fun h => absurd h hb) fun h => absurd h ho)⟩,
        fun _ => ⟨_, rfl⟩⟩
    · dsimp only
      rw [ht, Ex.error_bind]
      exact ⟨⟨fun h => (by cases h), fun h => (h.elim (fun h => absurd h hb) fun h => absurd h ho)⟩,
        fun _ => ⟨_, rfl⟩⟩

/-- C95. trace_gzip_1.rs, for any encoder that writes a valid DEFLATE stream for the data and any program in
place of gzip: the run ends normally exactly if the first block is a stored one, or has the codes that level 1
would have made for all of the data, or stands for all of the data and gzip writes something else. In every
other case it panics. -/
theorem C95_trace (data : List UInt8) (hne : data ≠ []) : ∃ own, lzExpand 32768 [] own = some data ∧
    ∀ (flate : List UInt8 → Option (List UInt8)) (gzip : List UInt8 → List UInt8) (d : List UInt8) (b : Block)
      (bs : List Block),
      flate data = some d → DeflateBytes (b :: bs) d →
      lzExpand 32768 [] ((b :: bs).flatMap lzCodes) = some data →
      ((Fuzz.traceGzip1 flate gzip data = .ok () ↔ (∃ x, b = .uncompressed x) ∨ lzCodes b = own ∨
          lzExpand 32768 [] (lzCodes b) = some data ∧
            ∃ hd m tail, gzip data = hd ++ m ++ tail ∧ hd.length = 10 ∧ tail.length = 8 ∧ m ≠ d) ∧
        (Fuzz.traceGzip1 flate gzip data ≠ .ok () →
          ∃ p, Fuzz.traceGzip1 flate gzip data = .error (.panic p))) := by
  obtain ⟨own, he, hown⟩ := first_block_own data
  refine ⟨own, he, ?_⟩
  intro flate gzip d b bs hf hdef hx
  obtain ⟨x, more, hx, hm⟩ := Fuzz.expand_first hx
  have hemp : data.isEmpty = false := by cases data with
    | nil => exact absurd rfl hne
    | cons => rfl
  unfold Fuzz.traceGzip1
  rw [hemp, if_neg Bool.false_ne_true, hf]
  dsimp only
  rw [Fuzz.firstBlock_deflate hdef, Ex.ok_bind]
  rcases Fuzz.codesOf_eq b with ⟨h1, h2⟩ | ⟨h1, h2⟩
  · rw [h1]
    exact ⟨⟨fun _ => .inl h2, fun _ => rfl⟩, fun h => absurd rfl h⟩
  · rw [h1]
    have hb : ¬ ∃ x, b = .uncompressed x := fun ⟨x, hx⟩ => h2 x hx
    rcases hown (lzCodes b) x more hx hm with ⟨ht, ho⟩ | ⟨hxd, ho, tr, ht, hn⟩ | ⟨hxd, ho, p, ht⟩
    · dsimp only
      rw [ht, Ex.ok_bind, if_pos ((Fuzz.all_correct _).2 fun t ht => (List.mem_replicate.1 ht).2)]
      exact ⟨⟨fun _ => .inr (.inl ho), fun _ => rfl⟩, fun h => absurd rfl h⟩
    · dsimp only
      rw [ht, Ex.ok_bind, if_neg (fun h => hn ((Fuzz.all_correct _).1 h))]
      rw [hxd] at hx
      by_cases hlen : (gzip data).length < 18
      · have : ∃ p, Fuzz.body (gzip data) = .error (.panic p) := by
          unfold Fuzz.body
          split
          · exact ⟨_, rfl⟩
          · rw [if_pos (by omega)]; exact ⟨_, rfl⟩
        obtain ⟨p, hp⟩ := this
        rw [hp, Ex.error_bind]
        refine ⟨⟨fun h => (by cases h), ?_⟩, fun _ => ⟨_, rfl⟩⟩
        rintro (h | h | ⟨_, hd, m, tail, h, h1, h2, _⟩)
        · exact absurd h hb
        · exact absurd h ho
        · rw [h] at hlen; simp at hlen; omega
      · obtain ⟨hd, m, tail, hg, h10, h8⟩ : ∃ hd m tail, gzip data = hd ++ m ++ tail ∧ hd.length = 10 ∧
            tail.length = 8 := by
          refine ⟨(gzip data).take 10, ((gzip data).take ((gzip data).length - 8)).drop 10,
            (gzip data).drop ((gzip data).length - 8), ?_, by simp; omega, by simp; omega⟩
          have : (gzip data).take 10 = ((gzip data).take ((gzip data).length - 8)).take 10 := by
            rw [List.take_take, Nat.min_eq_left (by omega)]
          rw [this, List.take_append_drop, List.take_append_drop]
        rw [hg, Fuzz.body_eq hd m tail h10 h8, Ex.ok_bind]
        by_cases hmd : m = d
        · subst hmd
          rw [if_neg (by simp)]
          refine ⟨⟨fun h => (by cases h), ?_⟩, fun _ => ⟨_, rfl⟩⟩
          rintro (h | h | ⟨_, hd', m', tail', h, h1, h2, h3⟩)
          · exact absurd h hb
          · exact absurd h ho
          · have e1 := List.append_inj' h (by omega)
            have e2 := List.append_inj e1.1 (by omega)
            exact absurd e2.2.symm h3
        · rw [if_pos (by simpa using Ne.symm hmd)]
          exact ⟨⟨fun _ => .inr (.inr ⟨hx, hd, m, tail, rfl, h10, h8, hmd⟩), fun _ => rfl⟩,
            fun h => absurd rfl h⟩
    · dsimp only
      rw [ht, Ex.error_bind]
      refine ⟨⟨fun h => (by cases h), ?_⟩, fun _ => ⟨_, rfl⟩⟩
      rintro (h | h | ⟨h, _⟩)
      · exact absurd h hb
      · exact absurd h ho
      · rw [hx] at h; exact absurd (Option.some.inj h) hxd

/-- C95. So both targets panic on every correct compressor that ends its first compressed block before the end
of the data, however good its codes are. -/
theorem C95_split (data : List UInt8) (flate : List UInt8 → Option (List UInt8))
    (gzip : List UInt8 → List UInt8) (hd d tail x : List UInt8) (b : Block) (bs : List Block)
    (h10 : hd.length = 10) (h8 : tail.length = 8) (hdef : DeflateBytes (b :: bs) d)
    (he : lzExpand 32768 [] ((b :: bs).flatMap lzCodes) = some data)
    (hb : ∀ y, b ≠ .uncompressed y) (hx : lzExpand 32768 [] (lzCodes b) = some x) (hlt : x ≠ data) :
    (gzip data = hd ++ d ++ tail → ∃ p, Fuzz.execGzip gzip data = .error (.panic p)) ∧
    (flate data = some d → ∃ p, Fuzz.traceGzip1 flate gzip data = .error (.panic p)) := by
  have hne : data ≠ [] := by
    rintro rfl
    obtain ⟨y, more, h1, h2⟩ := Fuzz.expand_first he
    rw [hx] at h1
    cases h1
    exact hlt (List.append_eq_nil_iff.1 h2).1
  constructor
  · intro hg
    obtain ⟨own, ho, h⟩ := C95_exec data hne
    obtain ⟨h1, h2⟩ := h gzip hd d tail b bs hg h10 h8 hdef he
    refine h2 fun hk => ?_
    rcases h1.1 hk with ⟨y, hy⟩ | hy
    · exact hb y hy
    · rw [hy, ho] at hx
      exact hlt (Option.some.inj hx).symm
  · intro hf
    obtain ⟨own, ho, h⟩ := C95_trace data hne
    obtain ⟨h1, h2⟩ := h flate gzip d b bs hf hdef he
    refine h2 fun hk => ?_
    rcases h1.1 hk with ⟨y, hy⟩ | hy | ⟨hy, _⟩
    · exact hb y hy
    · rw [hy, ho] at hx
      exact hlt (Option.some.inj hx).symm
    · rw [hx] at hy
      exact hlt (Option.some.inj hy)

namespace Fuzz

theorem firstBlock_none {d : List UInt8}
    (h : ∀ f b bs rest, BlockBits LengthSym 1 b bs → bytesBits d ≠ f :: (bs ++ rest)) :
    firstBlock d = .error (.panic .explicit) := by
  have hw : (Parse.parseDeflate d).inner.WF := BitReader.wf_new d
  have hbits : (Parse.parseDeflate d).inner.bits = bytesBits d := BitReader.bits_new d
  have hoff : (0 + (Parse.parseDeflate d).inner.bits.length) % 8 = 0 := by
    rw [hbits, bytesBits_length]; omega
  rcases Parse.next_open hw rfl hoff with ⟨b, f, bs, r, _, _, h3, h4⟩ | ⟨e, r, f, h1, _⟩
  · exact absurd (hbits.symm.trans h4) (h f b bs r.bits h3)
  · rw [firstBlock, h1]

end Fuzz

/-- C95: both targets panic if the other program fails or does not write a stream that begins with a block:
no malformed output goes unnoticed. -/
theorem C95_malformed (data : List UInt8) (hne : data ≠ []) (flate : List UInt8 → Option (List UInt8))
    (gzip : List UInt8 → List UInt8) :
    ((gzip data).length < 18 → ∃ p, Fuzz.execGzip gzip data = .error (.panic p)) ∧
    (∀ hd d tail, gzip data = hd ++ d ++ tail → hd.length = 10 → tail.length = 8 →
      (∀ f b bs rest, BlockBits LengthSym 1 b bs → bytesBits d ≠ f :: (bs ++ rest)) →
      ∃ p, Fuzz.execGzip gzip data = .error (.panic p)) ∧
    (flate data = none → ∃ p, Fuzz.traceGzip1 flate gzip data = .error (.panic p)) ∧
    (∀ d, flate data = some d →
      (∀ f b bs rest, BlockBits LengthSym 1 b bs → bytesBits d ≠ f :: (bs ++ rest)) →
      ∃ p, Fuzz.traceGzip1 flate gzip data = .error (.panic p)) := by
  have hemp : data.isEmpty = false := by cases data with
    | nil => exact absurd rfl hne
    | cons => rfl
  refine ⟨fun h => ?_, fun hd d tail hf h10 h8 hno => ?_, fun h => ?_, fun d h hno => ?_⟩
  · unfold Fuzz.execGzip Fuzz.body
    rw [hemp, if_neg Bool.false_ne_true]
    by_cases h8 : (gzip data).length < 8
    · rw [if_pos h8]; exact ⟨_, rfl⟩
    · rw [if_neg h8, if_pos (by omega)]; exact ⟨_, rfl⟩
  · unfold Fuzz.execGzip
    rw [hemp, if_neg Bool.false_ne_true, hf, Fuzz.body_eq hd d tail h10 h8, Ex.ok_bind, Fuzz.firstBlock_none hno]
    exact ⟨_, rfl⟩
  · unfold Fuzz.traceGzip1
    rw [hemp, if_neg Bool.false_ne_true, h]
    exact ⟨_, rfl⟩
  · unfold Fuzz.traceGzip1
    rw [hemp, if_neg Bool.false_ne_true, h]
    dsimp only
    rw [Fuzz.firstBlock_none hno]
    exact ⟨_, rfl⟩

/-- Nothing, and a reserved block, do not begin with a block. -/
example : (∀ f b bs rest, BlockBits LengthSym 1 b bs → bytesBits [] ≠ f :: (bs ++ rest)) ∧
    (∀ f b bs rest, BlockBits LengthSym 1 b bs → bytesBits [0x07, 0xff] ≠ f :: (bs ++ rest)) := by
  constructor
  · intro f b bs rest _ h; cases h
  · intro f b bs rest h
    cases h <;> simp [bytesBits, byteBits, lsbBits]

/-- Nothing is done with empty data. -/
theorem C95_empty (flate : List UInt8 → Option (List UInt8)) (gzip : List UInt8 → List UInt8) :
    Fuzz.execGzip gzip [] = .ok () ∧ Fuzz.traceGzip1 flate gzip [] = .ok () := ⟨rfl, rfl⟩

/-- The file of `example_two`, all of whose codes are those of level 1 (`tryGzip` of tracing_size.rs passes),
makes both targets panic because it has two blocks. -/
example : exampleGz.length = 10 ∧
    RunGzip.tryGzip .dev 1 (exampleGz ++ exampleTwo ++ List.replicate 8 0) = .ok () ∧
    Fuzz.execGzip (fun _ => exampleGz ++ exampleTwo ++ List.replicate 8 0) [9, 1, 2, 3, 1, 2, 3] =
      .error (.panic .explicit) ∧
    Fuzz.traceGzip1 (fun _ => some exampleTwo) (fun _ => []) [9, 1, 2, 3, 1, 2, 3] =
      .error (.panic .explicit) := by
  decide +kernel

/-- One block of the four literals passes; with gzip a program that does something else and codes that level 1
would not have made, the second target passes too and with gzip the same program it does not. -/
example : Fuzz.execGzip (fun _ => exampleGz ++ [227, 100, 100, 98, 6, 0] ++ List.replicate 8 0) [9, 1, 2, 3] =
      .ok () ∧
    Fuzz.traceGzip1 (fun _ => some [227, 100, 100, 98, 6, 0]) (fun _ => []) [9, 1, 2, 3] = .ok () ∧
    Fuzz.traceGzip1 (fun _ => some [75, 76, 76, 76, 76, 76, 76, 76, 4, 0]) (fun _ => exampleGz ++ [75, 0] ++
      List.replicate 8 0) (List.replicate 8 97) = .ok () ∧
    Fuzz.traceGzip1 (fun _ => some [75, 76, 76, 76, 76, 76, 76, 76, 4, 0])
      (fun _ => exampleGz ++ [75, 76, 76, 76, 76, 76, 76, 76, 4, 0] ++ List.replicate 8 0) (List.replicate 8 97) = .error (.panic .explicit) := by
  decide +kernel

end Rezip
