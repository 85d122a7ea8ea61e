import Verif.Props.Cat
import Verif.Props.EndToEnd
import Verif.Model.Drivers

/-!
# C85: the round trip of a whole file
-/

namespace Rezip

open Rezip.Spec Parse Serialise DecState Huffman

theorem unwrap_error {α : Type} (e : Fail) (he : e ≠ .diverge) :
    ∃ p, unwrap (Except.error e : Except Fail α) = .error (.panic p) := by
  cases e with
  | err x => exact ⟨_, rfl⟩
  | panic p => exact ⟨p, rfl⟩
  | diverge => exact absurd rfl he

theorem unwrapState_error {σ : Type} (e : Fail) (he : e ≠ .diverge) (s : σ) :
    ∃ p, unwrapState (.error e s) = .error (.panic p) := unwrap_error e he

theorem lzExpand_split_none {W : Nat} {h u : List UInt8} {a b : List Code}
    (ha : lzExpand W h a = some u) : lzExpand W h (a ++ b) = (lzExpand W (h ++ u) b).map (u ++ ·) := by
  induction a generalizing h u with
  | nil =>
    cases ha
    rw [List.nil_append, List.append_nil]
    cases lzExpand W h b <;> rfl
  | cons c cs ih =>
    rw [lzExpand] at ha
    cases hc : lzCode W h c with
    | none => rw [hc] at ha; cases ha
    | some y =>
      rw [hc] at ha
      dsimp only at ha
      cases hx : lzExpand W (h ++ y) cs with
      | none => rw [hx] at ha; cases ha
      | some z =>
        rw [hx] at ha
        cases ha
        rw [List.cons_append, lzExpand, hc]
        dsimp only
        rw [ih hx, List.append_assoc]
        cases lzExpand W (h ++ (y ++ z)) b <;> simp

/-- Writing a block that was parsed: it succeeds, or fails with an error or a panic. -/
theorem compressedBlock_parsed {off : Nat} {b : Block} {bs : List Bool} (hb : BlockBits LengthSym off b bs)
    (pre : List UInt8) (acc : List Bool) :
    (Encodable b ∧ ∃ out, compressedBlock b (BitWriter.writerOf pre acc) =
      .ok () (BitWriter.writerOf pre (acc ++ out))) ∨
    (¬ Encodable b ∧ ∃ e w, e ≠ .diverge ∧
      compressedBlock b (BitWriter.writerOf pre acc) = .error e w) := by
  by_cases he : Encodable b
  · exact .inl ⟨he, compressedBlock_total he pre acc⟩
  · refine .inr ⟨he, ?_⟩
    have hno : ∀ u w, compressedBlock b (BitWriter.writerOf pre acc) ≠ .ok u w :=
      fun u w h => he (encodable_of_written hb h)
    cases hb with
    | stored data hd => exact absurd (.stored data hd) he
    | fixed codes bs hc =>
      exact absurd ((C23_fixed_encodable codes).2 fun r hr => CodesBits.refOk hc r hr) he
    | dynamic lit dist alpha codes trees hdr bs hh hc ha ht hcs =>
      obtain ⟨lt, dt, hr, hl, hd⟩ := readCodes_complete hh hc ha []
      rw [List.append_nil] at hr
      obtain ⟨hlen, hdl⟩ := header_length hh
      cases pushAll_eq ht
      rw [compressedBlock] at hno ⊢
      rw [ES.bind_ok (BitWriter.writeBitsVal_writerOf pre acc (by omega)),
        ES.bind_ok (BitWriter.writeVec_writerOf pre _ hdr), readCodesOf_ok hr, ES.liftE_bind_ok] at hno ⊢
      dsimp only at hno ⊢
      rw [compressedCodes_unfold hl hd hlen (alpha_length ha hdl)] at hno ⊢
      rcases compressedCodesLoop_cases (lit := lit) (alpha := alpha) codes pre
        (acc ++ lsbBits 2 2 ++ hdr) with ⟨_, bs', h1, h2⟩ | ⟨cs₁, c, cs₂, acc', e, w', _, _, hn, g1, g2⟩
      · rw [ES.bind_ok h2] at hno ⊢
        cases heob : codeOf lit 256 with
        | none =>
          rw [lookup_table_none (by omega) heob, ES.liftE_bind_error]
          exact ⟨.panic .unwrap, _, (by intro h; cases h), rfl⟩
        | some eob =>
          rw [lookup_table_some (by omega) heob, ES.liftE_bind_ok, BitWriter.writeVec_writerOf] at hno
          exact absurd rfl (hno _ _)
      · refine ⟨e, w', ?_, ES.bind_err g2⟩
        rcases compressedCode_cases (lit := lit) (alpha := alpha) c pre acc' with
          ⟨bs2, h1, _⟩ | ⟨e', w2, he', _, hk⟩
        · exact absurd ⟨bs2, h1⟩ hn
        · rw [g1] at he'
          cases he'
          rcases hk with ⟨_, _, rfl⟩ | ⟨_, _, rfl⟩ | ⟨_, _, _, rfl⟩ | ⟨_, _, _, rfl⟩ <;> intro h <;> cases h

theorem decompressedBlock_vec (b : Block) (h o : List UInt8) :
    (∃ x, lzExpand 32768 h (lzCodes b) = some x ∧
      decompressedBlock b ⟨CircularBuffer.ofHist 32768 h, ⟨o, none⟩⟩ =
        .ok () ⟨CircularBuffer.ofHist 32768 (h ++ x), ⟨o ++ x, none⟩⟩) ∨
    (lzExpand 32768 h (lzCodes b) = none ∧ ∃ st,
      decompressedBlock b ⟨CircularBuffer.ofHist 32768 h, ⟨o, none⟩⟩ = .error (.err .distMustFit) st) := by
  have hap := decompressedBlock_appends (W := 32768) (by omega) (by omega) b h ⟨o, none⟩
  unfold Appends expandResult at hap
  rw [writeAll_vec] at hap
  rcases lzExpand_eq 32768 h (lzCodes b) with he | he <;> rw [he] at hap ⊢
  · exact .inl ⟨_, rfl, hap⟩
  · exact .inr ⟨rfl, _, hap⟩

theorem collectLoop_prefix (fuel : Nat) (it : BlockIter) (acc : List Block) :
    acc <+: (collectLoop fuel it acc).2.1 := by
  induction fuel generalizing it acc with
  | zero => exact List.prefix_refl _
  | succ fuel ih =>
    rw [collectLoop]
    cases it.next with
    | mk cur it1 =>
      cases cur with
      | none => exact List.prefix_refl _
      | some x =>
        cases x with
        | error e => exact List.prefix_refl _
        | ok b => exact (List.prefix_append _ _).trans (ih it1 (acc ++ [b]))

namespace RoundTrip

/-- The loop in terms of the blocks the iterator yields. -/
theorem loop_eq (fuel : Nat) (it : BlockIter)
    (hgood : ∀ n b, item n it = some (.ok b) → ∃ off bs, BlockBits LengthSym off b bs)
    (herr : ∀ n e, item n it = some (.error e) → e ≠ .diverge)
    (h o pre : List UInt8) (acc : List Bool) :
    ∃ r bl it', (∀ a, collectLoop fuel it a = (r, a ++ bl, it')) ∧
      (r = .error .diverge ∨
       (r ≠ .ok () ∧ ∃ p, loop fuel it.next.1 it.next.2 ⟨CircularBuffer.ofHist 32768 h, ⟨o, none⟩⟩
        (BitWriter.writerOf pre acc) = .error (.panic p)) ∨
       (r = .ok () ∧ ((∃ x bits, lzExpand 32768 h (bl.flatMap lzCodes) = some x ∧
          (∀ b ∈ bl, Encodable b) ∧ recompressLoop bl (BitWriter.writerOf pre acc) =
            .ok () (BitWriter.writerOf pre (acc ++ bits)) ∧
          loop fuel it.next.1 it.next.2 ⟨CircularBuffer.ofHist 32768 h, ⟨o, none⟩⟩
            (BitWriter.writerOf pre acc) =
            .ok (it', ⟨CircularBuffer.ofHist 32768 (h ++ x), ⟨o ++ x, none⟩⟩,
              BitWriter.writerOf pre (acc ++ bits))) ∨
        ((lzExpand 32768 h (bl.flatMap lzCodes) = none ∨ ¬ ∀ b ∈ bl, Encodable b) ∧
          ∃ p, loop fuel it.next.1 it.next.2 ⟨CircularBuffer.ofHist 32768 h, ⟨o, none⟩⟩
            (BitWriter.writerOf pre acc) = .error (.panic p))))) := by
  induction fuel generalizing it h o acc with
  | zero => exact ⟨.error .diverge, [], it, fun a => by rw [collectLoop, List.append_nil], .inl rfl⟩
  | succ fuel ih =>
    cases hn : it.next with
    | mk cur it1 =>
      cases cur with
      | none =>
        refine ⟨.ok (), [], it1, fun a => by rw [collectLoop, hn]; simp, .inr (.inr ⟨rfl, .inl
          ⟨[], [], rfl, by simp, ?_, ?_⟩⟩)⟩
        · rw [recompressLoop, List.append_nil]; rfl
        · simp only [List.append_nil]; rfl
      | some x =>
        have h0 : item 0 it = some x := by show it.next.1 = _; rw [hn]
        have hitem : ∀ n, item (n + 1) it = item n it1 := by
          intro n
          show (after n it.next.2).next.1 = _
          rw [hn]
          rfl
        cases x with
        | error e =>
          refine ⟨.error e, [], it1, fun a => by rw [collectLoop, hn]; simp, .inr (.inl
            ⟨(by intro h; cases h), ?_⟩)⟩
          obtain ⟨p, hp⟩ := unwrap_error (α := Block) e (herr 0 e h0)
          exact ⟨p, by rw [loop]; dsimp only; rw [hp]; rfl⟩
        | ok b =>
          obtain ⟨off, bs, hb⟩ := hgood 0 b h0
          have hg' : ∀ n b, item n it1 = some (.ok b) → ∃ off bs, BlockBits LengthSym off b bs :=
            fun n b hx => hgood (n + 1) b (by rw [hitem]; exact hx)
          have he' : ∀ n e, item n it1 = some (.error e) → e ≠ .diverge :=
            fun n e hx => herr (n + 1) e (by rw [hitem]; exact hx)
          have hcol : ∀ r bl it', (∀ a, collectLoop fuel it1 a = (r, a ++ bl, it')) →
              ∀ a, collectLoop (fuel + 1) it a = (r, a ++ (b :: bl), it') := by
            intro r bl it' hc a
            rw [collectLoop, hn]
            dsimp only
            rw [hc]
            simp
          have hunf : ∀ w, loop (fuel + 1) (some (.ok b)) it1
              ⟨CircularBuffer.ofHist 32768 h, ⟨o, none⟩⟩ w =
              (unwrapState (decompressedBlock b ⟨CircularBuffer.ofHist 32768 h, ⟨o, none⟩⟩) >>= fun dec =>
                unwrapState (BitWriter.writeBit it1.next.1.isNone w) >>= fun w =>
                unwrapState (compressedBlock b w) >>= fun w =>
                loop fuel it1.next.1 it1.next.2 dec w) := by
            intro w
            rw [loop]
            rfl
          dsimp only
          rw [hunf, BitWriter.writeBit_writerOf]
          rcases decompressedBlock_vec b h o with ⟨x, hx, hd⟩ | ⟨hx, st, hd⟩
          · rw [hd]
            show ∃ r bl it', _ ∧ (_ ∨ (_ ∧ ∃ p, (unwrapState (compressedBlock b _) >>= _) = _) ∨
              (_ ∧ ((∃ y bits, _ ∧ _ ∧ _ ∧ (unwrapState (compressedBlock b _) >>= _) = _) ∨ (_ ∧ ∃ p,
                (unwrapState (compressedBlock b _) >>= _) = _))))
            rcases compressedBlock_parsed hb pre (acc ++ [it1.next.1.isNone]) with
              ⟨henc, out, hw⟩ | ⟨henc, e, w, hne, hw⟩
            · rw [hw]
              show ∃ r bl it', _ ∧ (_ ∨ (_ ∧ ∃ p, loop _ _ _ _ _ = _) ∨
                (_ ∧ ((∃ y bits, _ ∧ _ ∧ _ ∧ loop _ _ _ _ _ = _) ∨ (_ ∧ ∃ p, loop _ _ _ _ _ = _))))
              obtain ⟨r, bl, it', hc, hrest⟩ := ih it1 hg' he' (h ++ x) (o ++ x)
                (acc ++ [it1.next.1.isNone] ++ out)
              refine ⟨r, b :: bl, it', hcol r bl it' hc, ?_⟩
              rcases hrest with hr | hr | ⟨hr, hrest⟩
              · exact .inl hr
              · exact .inr (.inl hr)
              · refine .inr (.inr ⟨hr, ?_⟩)
                rcases hrest with ⟨y, bits, hy, hall, hrec, hl⟩ | ⟨hfail, hl⟩
                · refine .inl ⟨x ++ y, [it1.next.1.isNone] ++ out ++ bits, ?_, ?_, ?_, ?_⟩
                  · rw [List.flatMap_cons]
                    rw [lzExpand_split_none hx, hy]
                    rfl
                  · intro b' hb'
                    rcases List.mem_cons.1 hb' with rfl | hb'
                    · exact henc
                    · exact hall b' hb'
                  · have hempty : bl.isEmpty = it1.next.1.isNone := by
                      cases fuel with
                      | zero =>
                        have := hc []
                        rw [collectLoop, hr] at this
                        cases this
                      | succ fuel =>
                        cases hn1 : it1.next with
                        | mk cur it2 =>
                          have h1 := hc []
                          rw [collectLoop, hn1] at h1
                          cases cur with
                          | none =>
                            simp only [List.nil_append, Prod.mk.injEq] at h1
                            rw [← h1.2.1]
                            rfl
                          | some z =>
                            cases z with
                            | error e =>
                              dsimp only at h1
                              rw [hr] at h1
                              cases h1
                            | ok b2 =>
                              dsimp only at h1
                              have h2 := collectLoop_prefix fuel it2 ([] ++ [b2])
                              rw [h1] at h2
                              cases bl with
                              | nil =>
                                obtain ⟨l, hl⟩ := h2
                                simp at hl
                              | cons => rfl
                    rw [recompressLoop, hempty, ES.bind_ok (BitWriter.writeBit_writerOf pre acc _),
                      ES.bind_ok hw, hrec]
                    simp
                  · rw [hl]
                    simp
                · refine .inr ⟨?_, hl⟩
                  rcases hfail with hfail | hfail
                  · left
                    rw [List.flatMap_cons]
                    rw [lzExpand_split_none hx, hfail]
                    rfl
                  · right
                    intro hall
                    exact hfail fun b' hb' => hall b' (List.mem_cons_of_mem _ hb')
            · obtain ⟨p, hp⟩ := unwrapState_error e hne w
              rw [hw, hp, Ex.error_bind]
              obtain ⟨r, bl, it', hc, hrest⟩ := ih it1 hg' he' h o acc
              refine ⟨r, b :: bl, it', hcol r bl it' hc, ?_⟩
              rcases hrest with hr | ⟨hr, _⟩ | ⟨hr, _⟩
              · exact .inl hr
              · exact .inr (.inl ⟨hr, p, rfl⟩)
              · exact .inr (.inr ⟨hr, .inr ⟨.inr fun hall => henc (hall b (by simp)), p, rfl⟩⟩)
          · obtain ⟨p, hp⟩ := unwrapState_error (.err .distMustFit) (by intro h; cases h) st
            rw [hd, hp, Ex.error_bind]
            obtain ⟨r, bl, it', hc, hrest⟩ := ih it1 hg' he' h o acc
            refine ⟨r, b :: bl, it', hcol r bl it' hc, ?_⟩
            rcases hrest with hr | ⟨hr, _⟩ | ⟨hr, _⟩
            · exact .inl hr
            · exact .inr (.inl ⟨hr, _, rfl⟩)
            · refine .inr (.inr ⟨hr, .inr ⟨.inl ?_, _, rfl⟩⟩)
              rw [List.flatMap_cons]
              cases hf : lzExpand 32768 h (lzCodes b ++ bl.flatMap lzCodes) with
              | none => rfl
              | some y =>
                obtain ⟨u, v, hu, _⟩ := lzExpand_split hf
                rw [hx] at hu
                cases hu

/-- The run after the header: the blocks, and when it succeeds. -/
theorem run_eq (orig : List UInt8) (n : Nat) (hd raw : List UInt8)
    (hh : Gzip.discardHeader orig = .ok hd raw) :
    (∃ e, parseAll raw = .error e ∧ ∃ p, run orig n = .error (.panic p)) ∨
    (∃ blocks rest, parseAll raw = .ok (blocks, rest) ∧
      ((run orig n = .ok () ∧ ∃ x bits, lzExpand 32768 [] (blocks.flatMap lzCodes) = some x ∧
          recompressLoop blocks (BitWriter.writerOf hd []) = .ok () (BitWriter.writerOf hd bits) ∧
          orig = hd ++ packBits (padded bits) ++ rest ∧ n = x.length) ∨
       ((∃ p, run orig n = .error (.panic p)) ∧ ∀ x bits,
          lzExpand 32768 [] (blocks.flatMap lzCodes) = some x →
          recompressLoop blocks (BitWriter.writerOf hd []) = .ok () (BitWriter.writerOf hd bits) →
          orig = hd ++ packBits (padded bits) ++ rest → n ≠ x.length))) := by
  have hcap : CircularBuffer.withCapacity (32 * 1024) = .ok (CircularBuffer.ofHist 32768 []) := Cat.new_eq
  have hunf : run orig n = (loop (8 * raw.length + 2) (parseDeflate raw).next.1 (parseDeflate raw).next.2
      ⟨CircularBuffer.ofHist 32768 [], ⟨[], none⟩⟩ (BitWriter.writerOf hd []) >>= fun q =>
      unwrapState (BitWriter.align q.2.2) >>= fun w => w.intoInner >>= fun s =>
      assert (orig == s.out ++ q.1.inner.inner) >>= fun _ =>
      assert (n == q.2.1.into.out.length)) := by
    rw [run, hh]
    dsimp only
    rw [hcap, Ex.ok_bind, ← BitWriter.new_eq hd]
    rfl
  obtain ⟨r, bl, it', hc, hl⟩ := loop_eq (8 * raw.length + 2) (parseDeflate raw)
    (fun n b h => item_blockBits h)
    (fun n e h => by
      rcases C17_total raw n with h' | ⟨b, h'⟩ | ⟨x, h'⟩ <;> rw [h'] at h <;> cases h
      intro h; cases h) [] [] hd []
  have hcol : collect raw = (r, bl, it') := by rw [collect, hc, List.nil_append]
  rcases hl with hr | ⟨hr, p, hp⟩ | ⟨hr, hl⟩
  · exfalso
    have : parseAll raw = .error .diverge := by rw [parseAll, hcol, hr]
    obtain ⟨x, hx⟩ := parseAll_error this
    cases hx
  · left
    cases r with
    | ok u => exact absurd rfl hr
    | error e =>
      refine ⟨e, by rw [parseAll, hcol], p, ?_⟩
      rw [hunf, hp]
      rfl
  · right
    subst hr
    refine ⟨bl, it'.inner.inner, by rw [parseAll, hcol], ?_⟩
    rcases hl with ⟨x, bits, hx, hall, hrec, hl⟩ | ⟨hfail, p, hp⟩
    · rw [List.nil_append] at hrec
      have hrun : run orig n = (assert (orig == hd ++ packBits (padded bits) ++ it'.inner.inner) >>= fun _ =>
          assert (n == x.length)) := by
        rw [hunf, hl, Ex.ok_bind]
        dsimp only
        rw [List.nil_append, BitWriter.align_writerOf]
        show ((BitWriter.writerOf hd (padded bits)).intoInner >>= _) = _
        rw [BitWriter.intoInner_writerOf hd (padded_length bits), Ex.ok_bind]
        rfl
      by_cases h1 : orig = hd ++ packBits (padded bits) ++ it'.inner.inner
      · by_cases h2 : n = x.length
        · refine .inl ⟨?_, x, bits, hx, hrec, h1, h2⟩
          rw [hrun, assert_of (by simpa using h1), Ex.ok_bind, assert_of (by simpa using h2)]
        · refine .inr ⟨⟨.assertion, ?_⟩, ?_⟩
          · rw [hrun, assert_of (by simpa using h1), Ex.ok_bind]
            have : (n == x.length) = false := by simpa using h2
            rw [this]; rfl
          · intro x' bits' hx' _ _
            rw [hx] at hx'
            cases hx'
            exact h2
      · refine .inr ⟨⟨.assertion, ?_⟩, ?_⟩
        · rw [hrun]
          have : (orig == hd ++ packBits (padded bits) ++ it'.inner.inner) = false := by
            simpa using h1
          rw [this]; rfl
        · intro x' bits' hx' hb' h'
          rw [hrec] at hb'
          have := writerOf_inj _ _ (EStateM.Result.ok.inj hb').2
          subst this
          exact absurd h' h1
    · refine .inr ⟨⟨p, by rw [hunf, hp]; rfl⟩, ?_⟩
      intro x bits hx hb
      rcases hfail with hf | hf
      · rw [hf] at hx; cases hx
      · obtain ⟨d, _, sb, hs, _⟩ := (parseAll_iff raw bl it'.inner.inner).1 (by rw [parseAll, hcol])
        exact absurd (recompressLoop_encodable hs hb) hf

end RoundTrip

/-! ### C85 -/

/-- C85. The round trip of lib.rs (decompress and recompress every block of a file, compare with the file and
with an expected length) succeeds exactly for the files that consist of a gzip header, a deflate stream that
follows the length table and has no stored block whose length has different bytes, and anything after it,
when every reference is inside the window and the expected length is that of the data. -/
theorem C85_round_trip (file : List UInt8) (n : Nat) :
    RoundTrip.run file n = .ok () ↔ ∃ (hd : GzHeader) (d rest : List UInt8) (blocks : List Block)
      (x : List UInt8), hd.Valid ∧ file = hd.bytes ++ d ++ rest ∧ StrictDeflateBytes blocks d ∧
        (∀ b ∈ blocks, SwapSafe b) ∧ lzExpand 32768 [] (blocks.flatMap lzCodes) = some x ∧
        n = x.length := by
  constructor
  · intro h
    cases hh : Gzip.discardHeader file with
    | error e s =>
      rw [RoundTrip.run, hh] at h
      cases e <;> cases h
    | ok hd raw =>
      obtain ⟨rfl, g, hv, hg⟩ := C56_header file hd raw hh
      rcases RoundTrip.run_eq _ n hd raw hh with ⟨_, _, p, hp⟩ | ⟨blocks, rest, hparse, hl⟩
      · rw [hp] at h; cases h
      · rcases hl with ⟨_, x, bits, hx, hrec, ho, hn⟩ | ⟨⟨p, hp⟩, _⟩
        · obtain ⟨d, rfl, sb, hs, hb⟩ := (parseAll_iff _ _ _).1 hparse
          rw [List.append_assoc] at ho
          have hd' : d = packBits (padded bits) :=
            List.append_cancel_right (List.append_cancel_left ho)
          have h3 : bytesBits d = padded bits := by
            rw [hd', bytesBits_packBits]
            have : padLen (padded bits).length = 0 := by
              have := padded_length bits
              unfold padLen; omega
            rw [padded, this]; simp
          rw [hb, padded, padded] at h3
          obtain ⟨s1, s2⟩ := recompressLoop_same hs rfl writerOf_inj (acc := [])
            (by rw [List.nil_append]; exact hrec) h3
          exact ⟨g, d, rest, blocks, x, hv, by rw [hg, List.append_assoc], ⟨sb, s1, hb⟩, s2, hx, hn⟩
        · rw [hp] at h; cases h
  · rintro ⟨hd, d, rest, blocks, x, hv, rfl, hs, hsw, hx, hn⟩
    have hh : Gzip.discardHeader (hd.bytes ++ d ++ rest) = .ok hd.bytes (d ++ rest) := by
      rw [List.append_assoc]
      exact C57_accepted hd hv (d ++ rest)
    obtain ⟨bits, hb, hb'⟩ := hs
    have hparse : parseAll (d ++ rest) = .ok (blocks, rest) :=
      (parseAll_iff _ _ _).2 ⟨d, rfl, bits, StreamBits.mono hb, hb'⟩
    have hrec := recompressLoop_ok hb hsw hd.bytes (acc := []) rfl
    rw [List.nil_append] at hrec
    rcases RoundTrip.run_eq _ n _ _ hh with ⟨e, he, _⟩ | ⟨blocks', rest', hp', hl⟩
    · rw [hparse] at he; cases he
    · rw [hparse] at hp'
      cases hp'
      rcases hl with ⟨hl, _⟩ | ⟨_, hl⟩
      · exact hl
      · refine absurd hn (hl x bits hx hrec ?_)
        rw [← hb', packBits_bytesBits]

/-- C85. On every other file it panics: there is no other outcome. -/
theorem C85_else_panics (file : List UInt8) (n : Nat) (h : RoundTrip.run file n ≠ .ok ()) :
    ∃ p, RoundTrip.run file n = .error (.panic p) := by
  cases hh : Gzip.discardHeader file with
  | error e s =>
    obtain ⟨x, rfl⟩ := Gzip.onlyErrs_discardHeader _ _ _ hh
    exact ⟨.unwrap, by rw [RoundTrip.run, hh]; rfl⟩
  | ok hd raw =>
    rcases RoundTrip.run_eq _ n hd raw hh with ⟨_, _, hp⟩ | ⟨blocks, rest, _, ⟨hl, _⟩ | ⟨hl, _⟩⟩
    · exact hp
    · exact absurd hl h
    · exact hl

/-- A file with a name and four more bytes after the stream; the wrong length; a stored block whose length
bytes differ. -/
example :
    RoundTrip.run ([0x1f, 0x8b, 8, 8, 0, 0, 0, 0, 0, 3, 97, 0] ++ exampleStream ++ [1, 2, 3, 4]) 1 = .ok () ∧
    RoundTrip.run ([0x1f, 0x8b, 8, 8, 0, 0, 0, 0, 0, 3, 97, 0] ++ exampleStream ++ [1, 2, 3, 4]) 2 =
      .error (.panic .assertion) ∧
    RoundTrip.run ([0x1f, 0x8b, 8, 0, 0, 0, 0, 0, 0, 3] ++ [1, 1, 0, 0xfe, 0xff, 0x61]) 1 =
      .error (.panic .assertion) := by
  decide +kernel

end Rezip
