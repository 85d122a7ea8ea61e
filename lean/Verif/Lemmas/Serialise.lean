import Verif.Lemmas.Parse
import Verif.Lemmas.BitWriter
import Verif.Model.Serialise
import Verif.Spec.Iter

/-! Writing codes and blocks, against `CodeBits` and `BlockBits`. -/

namespace Rezip

open Spec Huffman

namespace Serialise

/-- The table `CodeTree::invert` produces. -/
def table (lens : List Nat) : List (Option BitVector) :=
  (List.range 288).map fun s => (codeOf lens s).map BitVector.ofBits

theorem table_length (lens : List Nat) : (table lens).length = 288 := by simp [table]

theorem index_table (lens : List Nat) {s : Nat} (h : s < 288) :
    index (table lens) s = .ok ((codeOf lens s).map BitVector.ofBits) := by
  rw [index_eq_ok]
  simp [table, h]

theorem lookup_table_some {lens : List Nat} {s : Nat} {c : List Bool} (h : s < 288)
    (hc : codeOf lens s = some c) : lookupUnwrap (table lens) s = .ok (BitVector.ofBits c) := by
  unfold lookupUnwrap
  rw [index_table lens h, hc]
  rfl

theorem lookup_table_none {lens : List Nat} {s : Nat} (h : s < 288)
    (hc : codeOf lens s = none) : lookupUnwrap (table lens) s = .error (.panic .unwrap) := by
  unfold lookupUnwrap
  rw [index_table lens h, hc]
  rfl

theorem invert_table {lens : List Nat} {t : CodeTree} (h : CodeTree.IsTree lens t)
    (hl : lens.length ≤ 288) : t.invert = .ok (table lens) := h.invert hl

theorem invertOption_table {alpha : Option (List Nat)} {dt : Option CodeTree}
    (h : IsOptTree alpha dt) (hl : ∀ dl, alpha = some dl → dl.length ≤ 288) :
    invertOption dt = .ok (alpha.map table) := by
  cases dt with
  | none => cases alpha with
    | none => rfl
    | some _ => cases h
  | some d => cases alpha with
    | none => cases h
    | some dl =>
      have h' : CodeTree.IsTree dl d := h
      rw [invertOption, invert_table h' (hl dl rfl)]
      rfl

theorem encodeDistance_bad {d : Nat} (h : d = 0 ∨ 32768 < d) (h2 : d < 65536) :
    Huffman.encodeDistance d = .error (.panic .overflow) := by
  rcases h with rfl | h
  · rfl
  · have : ∀ k, 2 ^ k ≤ 32768 → 2 ^ k < d := fun k hk => by omega
    unfold Huffman.encodeDistance
    rw [if_neg (by omega)]
    simp [encodeDistanceLoop, show 8 < d by omega, show 16 < d by omega, show 32 < d by omega,
      show 64 < d by omega, show 128 < d by omega, show 256 < d by omega, show 512 < d by omega,
      show 1024 < d by omega, show 2048 < d by omega, show 4096 < d by omega,
      show 8192 < d by omega, show 16384 < d by omega, show 32768 < d by omega]

theorem run_range (r : Ref) : 3 ≤ r.run ∧ r.run ≤ 258 := by
  have hlt : r.runMinus3.toNat < 256 := r.runMinus3.toNat_lt
  unfold Ref.run; omega

section

variable {lit : List Nat} {alpha : Option (List Nat)}

theorem encodeRun_ok {len i v : Nat} (h : StrictLengthSym len i v) {c : List Bool}
    (hc : codeOf lit (257 + i) = some c) (pre : List UInt8) (acc : List Bool) :
    encodeRun (table lit) len (BitWriter.writerOf pre acc) =
      .ok () (BitWriter.writerOf pre (acc ++ (c ++ lsbBits (lengthExtra.getD i 0) v))) := by
  obtain ⟨hls, h258⟩ := h
  obtain ⟨h3, h4⟩ := LengthSym.range hls
  obtain ⟨i', v', hls', e1, e2, h258'⟩ := encodeRunLength_spec h3 h4
  obtain ⟨rfl, rfl⟩ := LengthSym.unique hls hls' (fun h => by simp [h258 h, h258' h])
  have hi := hls.1
  unfold encodeRun
  rw [e1, ES.liftE_bind_ok, lookup_table_some (by omega) hc, ES.liftE_bind_ok,
    ES.bind_ok (BitWriter.writeVec_writerOf pre acc c), e2, ES.liftE_bind_ok]
  by_cases h0 : lengthExtra.getD i 0 = 0
  · rw [if_pos h0, h0]
    simp [lsbBits]
  · rw [if_neg h0]
    have := (length_table ⟨i, hi⟩).1
    dsimp only at this ⊢
    rw [BitWriter.writeBitsVal_writerOf _ _ (by omega), List.append_assoc]

theorem encodeRun_none {len i v : Nat} (h : StrictLengthSym len i v)
    (hc : codeOf lit (257 + i) = none) (w : BitWriter) :
    encodeRun (table lit) len w = .error (.panic .unwrap) w := by
  obtain ⟨hls, h258⟩ := h
  obtain ⟨h3, h4⟩ := LengthSym.range hls
  obtain ⟨i', v', hls', e1, e2, h258'⟩ := encodeRunLength_spec h3 h4
  obtain ⟨rfl, rfl⟩ := LengthSym.unique hls hls' (fun h => by simp [h258 h, h258' h])
  have hi := hls.1
  unfold encodeRun
  rw [e1, ES.liftE_bind_ok, lookup_table_none (by omega) hc, ES.liftE_bind_error]

theorem encodeDistance_ok {d i v : Nat} (h : DistSym d i v) {dl : List Nat} {c : List Bool}
    (hc : codeOf dl i = some c) (pre : List UInt8) (acc : List Bool) :
    encodeDistance (some (table dl)) d (BitWriter.writerOf pre acc) =
      .ok () (BitWriter.writerOf pre (acc ++ (c ++ lsbBits (distExtra.getD i 0) v))) := by
  obtain ⟨h3, h4⟩ := DistSym.range h
  obtain ⟨i', v', h', e1⟩ := encodeDistance_spec h3 h4
  obtain ⟨rfl, rfl⟩ := DistSym.unique h h'
  have hi := h.1
  unfold encodeDistance
  rw [e1, ES.liftE_bind_ok]
  dsimp only
  rw [lookup_table_some (by omega) hc, ES.liftE_bind_ok,
    ES.bind_ok (BitWriter.writeVec_writerOf pre acc c)]
  by_cases h0 : distExtra.getD i 0 = 0
  · rw [if_neg (by omega), h0]
    simp [lsbBits]
  · rw [if_pos (by omega)]
    have := (dist_table ⟨i, hi⟩).1
    dsimp only at this
    rw [BitWriter.writeBitsVal_writerOf _ _ (by omega), List.append_assoc]

theorem encodeDistance_none {d i v : Nat} (h : DistSym d i v) {dl : List Nat}
    (hc : codeOf dl i = none) (w : BitWriter) :
    encodeDistance (some (table dl)) d w = .error (.panic .unwrap) w := by
  obtain ⟨h3, h4⟩ := DistSym.range h
  obtain ⟨i', v', h', e1⟩ := encodeDistance_spec h3 h4
  obtain ⟨rfl, rfl⟩ := DistSym.unique h h'
  have hi := h.1
  unfold encodeDistance
  rw [e1, ES.liftE_bind_ok]
  dsimp only
  rw [lookup_table_none (by omega) hc, ES.liftE_bind_error]

theorem encodeDistance_notree {d : Nat} (h1 : 1 ≤ d) (h2 : d ≤ 32768) (w : BitWriter) :
    encodeDistance none d w = .error (.err .noDistanceTree) w := by
  obtain ⟨i', v', h', e1⟩ := encodeDistance_spec h1 h2
  unfold encodeDistance
  rw [e1, ES.liftE_bind_ok]
  rfl

theorem encodeDistance_range {d : Nat} (h : d = 0 ∨ 32768 < d) (h2 : d < 65536)
    (t : Option (List (Option BitVector))) (w : BitWriter) :
    encodeDistance t d w = .error (.panic .overflow) w := by
  unfold encodeDistance
  rw [encodeDistance_bad h h2, ES.liftE_bind_error]

theorem strict_exists {len : Nat} (h3 : 3 ≤ len) (h258 : len ≤ 258) :
    ∃ i v, StrictLengthSym len i v := by
  obtain ⟨i, v, h, _, _, h'⟩ := encodeRunLength_spec h3 h258
  exact ⟨i, v, h, h'⟩

/-- A code is written as its bits, or the failure is one of four kinds. -/
theorem compressedCode_cases (c : Code) (pre : List UInt8) (acc : List Bool) :
    (∃ bs, CodeBits StrictLengthSym lit alpha c bs ∧
      compressedCode (table lit) (alpha.map table) c (BitWriter.writerOf pre acc) =
        .ok () (BitWriter.writerOf pre (acc ++ bs))) ∨
    (∃ e w, compressedCode (table lit) (alpha.map table) c (BitWriter.writerOf pre acc) =
        .error e w ∧ (¬ CodeOk lit alpha c) ∧
        ((∃ b, c = .literal b ∧ e = .err .invalidLiteral) ∨
         (∃ r, c = .reference r ∧ e = .panic .unwrap) ∨
         (∃ r, c = .reference r ∧ alpha = none ∧ e = .err .noDistanceTree) ∨
         (∃ r, c = .reference r ∧ (r.dist.toNat = 0 ∨ 32768 < r.dist.toNat) ∧
            e = .panic .overflow))) := by
  cases c with
  | literal b =>
    have hb : b.toNat < 256 := b.toNat_lt
    simp only [compressedCode]
    rw [index_table lit (by omega), ES.liftE_bind_ok]
    cases hc : codeOf lit b.toNat with
    | none =>
      refine .inr ⟨_, _, rfl, ?_, .inl ⟨b, rfl, rfl⟩⟩
      rintro ⟨bs, hbs⟩
      cases hbs with
      | literal _ _ h => rw [hc] at h; cases h
    | some c =>
      exact .inl ⟨c, .literal b c hc, BitWriter.writeVec_writerOf pre acc c⟩
  | reference r =>
    simp only [compressedCode]
    obtain ⟨h3, h258⟩ := run_range r
    obtain ⟨i, v, hs⟩ := strict_exists h3 h258
    cases hlc : codeOf lit (257 + i) with
    | none =>
      refine .inr ⟨_, _, ES.bind_err (encodeRun_none hs hlc _), ?_, .inr (.inl ⟨r, rfl, rfl⟩)⟩
      rintro ⟨bs, hbs⟩
      cases hbs with
      | reference _ i' v' j w dl lc dc ha hls' hlc' hds hdc =>
        obtain ⟨rfl, rfl⟩ := LengthSym.unique hs.1 hls'.1 (fun h => by simp [hs.2 h, hls'.2 h])
        rw [hlc] at hlc'; cases hlc'
    | some lc =>
    have hdlt : r.dist.toNat < 65536 := r.dist.toNat_lt
    rw [ES.bind_ok (encodeRun_ok hs hlc pre acc)]
    by_cases hrange : r.dist.toNat = 0 ∨ 32768 < r.dist.toNat
    · refine .inr ⟨_, _, encodeDistance_range hrange hdlt _ _, ?_,
        .inr (.inr (.inr ⟨r, rfl, hrange, rfl⟩))⟩
      rintro ⟨bs, hbs⟩
      cases hbs with
      | reference _ i' v' j w dl lc dc ha hls' hlc' hds hdc =>
        obtain ⟨q1, q2⟩ := DistSym.range hds
        omega
    · have d1 : 1 ≤ r.dist.toNat := by omega
      have d2 : r.dist.toNat ≤ 32768 := by omega
      cases alpha with
      | none =>
        refine .inr ⟨_, _, encodeDistance_notree d1 d2 _, ?_, .inr (.inr (.inl ⟨r, rfl, rfl, rfl⟩))⟩
        rintro ⟨bs, hbs⟩
        cases hbs with
        | reference _ i' v' j w dl lc dc ha hls' hlc' hds hdc => cases ha
      | some dl =>
        obtain ⟨j, w, hds, _⟩ := encodeDistance_spec d1 d2
        rw [Option.map_some]
        cases hdc : codeOf dl j with
        | none =>
          refine .inr ⟨_, _, encodeDistance_none hds hdc _, ?_, .inr (.inl ⟨r, rfl, rfl⟩)⟩
          rintro ⟨bs, hbs⟩
          cases hbs with
          | reference _ i' v' j' w' dl' lc dc ha hls' hlc' hds' hdc' =>
            cases ha
            obtain ⟨rfl, rfl⟩ := DistSym.unique hds hds'
            rw [hdc] at hdc'; cases hdc'
        | some dc =>
          refine .inl ⟨_, .reference r i v j w dl lc dc rfl hs hlc hds hdc, ?_⟩
          rw [encodeDistance_ok hds hdc]
          simp

theorem CodeBits.unique {c : Code} {a b : List Bool}
    (h1 : CodeBits StrictLengthSym lit alpha c a) (h2 : CodeBits StrictLengthSym lit alpha c b) :
    a = b := by
  cases h1 with
  | literal x c hc =>
    cases h2 with
    | literal _ c' hc' => rw [hc] at hc'; exact Option.some.inj hc'
  | reference r i v j w dl lc dc ha hls hlc hds hdc =>
    cases h2 with
    | reference _ i' v' j' w' dl' lc' dc' ha' hls' hlc' hds' hdc' =>
      obtain ⟨rfl, rfl⟩ := LengthSym.unique hls.1 hls'.1 (fun h => by simp [hls.2 h, hls'.2 h])
      obtain ⟨rfl, rfl⟩ := DistSym.unique hds hds'
      rw [ha] at ha'
      cases ha'
      rw [hlc] at hlc'; cases hlc'
      rw [hdc] at hdc'; cases hdc'
      rfl

theorem compressedCode_ok {c : Code} {bs : List Bool}
    (h : CodeBits StrictLengthSym lit alpha c bs) (pre : List UInt8) (acc : List Bool) :
    compressedCode (table lit) (alpha.map table) c (BitWriter.writerOf pre acc) =
      .ok () (BitWriter.writerOf pre (acc ++ bs)) := by
  rcases compressedCode_cases (lit := lit) (alpha := alpha) c pre acc with
    ⟨bs', h1, h2⟩ | ⟨e, w, _, hn, _⟩
  · rw [h2, CodeBits.unique h1 h]
  · exact absurd ⟨bs, h⟩ hn

/-- All codes written, or stopped at the first one that has no bits. -/
theorem compressedCodesLoop_cases (cs : List Code) (pre : List UInt8) (acc : List Bool) :
    ((∀ c ∈ cs, CodeOk lit alpha c) ∧
      ∃ bs, (∀ eob, codeOf lit 256 = some eob → CodesBits StrictLengthSym lit alpha cs (bs ++ eob)) ∧
      compressedCodesLoop (table lit) (alpha.map table) cs (BitWriter.writerOf pre acc) =
        .ok () (BitWriter.writerOf pre (acc ++ bs))) ∨
    (∃ cs₁ c cs₂ acc' e w, cs = cs₁ ++ c :: cs₂ ∧ (∀ c ∈ cs₁, CodeOk lit alpha c) ∧
      ¬ CodeOk lit alpha c ∧
      compressedCode (table lit) (alpha.map table) c (BitWriter.writerOf pre acc') = .error e w ∧
      compressedCodesLoop (table lit) (alpha.map table) cs (BitWriter.writerOf pre acc) =
        .error e w) := by
  induction cs generalizing acc with
  | nil =>
    exact .inl ⟨by simp, [], fun eob h => .nil eob h, by simp [compressedCodesLoop]⟩
  | cons c cs ih =>
    rcases compressedCode_cases (lit := lit) (alpha := alpha) c pre acc with
      ⟨bs, h1, h2⟩ | ⟨e, w, he, hn, _⟩
    · rcases ih (acc ++ bs) with ⟨hall, bs', h3, h4⟩ | ⟨cs₁, d, cs₂, acc', e, w, rfl, g1, g2, g3, g4⟩
      · refine .inl ⟨?_, bs ++ bs', ?_, ?_⟩
        · intro x hx
          rcases List.mem_cons.1 hx with rfl | hx
          · exact ⟨bs, h1⟩
          · exact hall x hx
        · intro eob heob
          rw [List.append_assoc]
          exact .cons c cs bs _ h1 (h3 eob heob)
        · rw [compressedCodesLoop, ES.bind_ok h2, h4, List.append_assoc]
      · refine .inr ⟨c :: cs₁, d, cs₂, acc', e, w, rfl, ?_, g2, g3, ?_⟩
        · intro x hx
          rcases List.mem_cons.1 hx with rfl | hx
          · exact ⟨bs, h1⟩
          · exact g1 x hx
        · rw [compressedCodesLoop, ES.bind_ok h2, g4]
    · refine .inr ⟨[], c, cs, acc, e, w, rfl, by simp, hn, he, ?_⟩
      rw [compressedCodesLoop, ES.bind_err he]

theorem CodesBits.ok {cs : List Code} {bs : List Bool}
    (h : CodesBits StrictLengthSym lit alpha cs bs) :
    (∀ c ∈ cs, CodeOk lit alpha c) ∧ codeOf lit 256 ≠ none := by
  induction h with
  | nil c hc => exact ⟨by simp, by rw [hc]; simp⟩
  | cons c cs a b h1 _ ih =>
    refine ⟨?_, ih.2⟩
    intro x hx
    rcases List.mem_cons.1 hx with rfl | hx
    · exact ⟨a, h1⟩
    · exact ih.1 x hx

theorem CodesBits.unique {cs : List Code} {a b : List Bool}
    (h1 : CodesBits StrictLengthSym lit alpha cs a)
    (h2 : CodesBits StrictLengthSym lit alpha cs b) : a = b := by
  induction h1 generalizing b with
  | nil c hc =>
    cases h2 with
    | nil _ hc' => rw [hc] at hc'; exact Option.some.inj hc'
  | cons c cs a1 b1 h1 _ ih =>
    cases h2 with
    | cons _ _ a2 b2 g1 g2 => rw [CodeBits.unique h1 g1, ih g2]

variable {lt : CodeTree} {dt : Option CodeTree}

theorem compressedCodes_unfold (hl : CodeTree.IsTree lit lt) (hd : IsOptTree alpha dt)
    (hlen : lit.length ≤ 288) (hdlen : ∀ dl, alpha = some dl → dl.length ≤ 288) (cs : List Code)
    (w : BitWriter) :
    compressedCodes lt dt cs w = (do
      compressedCodesLoop (table lit) (alpha.map table) cs
      let eob ← liftE (lookupUnwrap (table lit) 256)
      BitWriter.writeVec eob) w := by
  unfold compressedCodes
  rw [invert_table hl hlen, ES.liftE_bind_ok, invertOption_table hd hdlen, ES.liftE_bind_ok,
    assert_of (by simp [table_length]), ES.liftE_bind_ok]

theorem compressedCodes_ok (hl : CodeTree.IsTree lit lt) (hd : IsOptTree alpha dt)
    (hlen : lit.length ≤ 288) (hdlen : ∀ dl, alpha = some dl → dl.length ≤ 288) {cs : List Code}
    {bs : List Bool} (h : CodesBits StrictLengthSym lit alpha cs bs) (pre : List UInt8)
    (acc : List Bool) :
    compressedCodes lt dt cs (BitWriter.writerOf pre acc) =
      .ok () (BitWriter.writerOf pre (acc ++ bs)) := by
  rw [compressedCodes_unfold hl hd hlen hdlen]
  obtain ⟨hall, heob⟩ := CodesBits.ok h
  rcases compressedCodesLoop_cases (lit := lit) (alpha := alpha) cs pre acc with
    ⟨_, bs', h1, h2⟩ | ⟨cs₁, c, cs₂, acc', e, w, rfl, _, hn, _⟩
  · rw [ES.bind_ok h2]
    cases he : codeOf lit 256 with
    | none => exact absurd he heob
    | some eob =>
      rw [lookup_table_some (by omega) he, ES.liftE_bind_ok, BitWriter.writeVec_writerOf,
        CodesBits.unique h (h1 eob he), List.append_assoc]
  · exact absurd (hall c (by simp)) hn

theorem compressedCodes_inv (hl : CodeTree.IsTree lit lt) (hd : IsOptTree alpha dt)
    (hlen : lit.length ≤ 288) (hdlen : ∀ dl, alpha = some dl → dl.length ≤ 288) {cs : List Code}
    {pre : List UInt8} {acc : List Bool} {w : BitWriter} {u : Unit}
    (h : compressedCodes lt dt cs (BitWriter.writerOf pre acc) = .ok u w) :
    ∃ bs, CodesBits StrictLengthSym lit alpha cs bs ∧ w = BitWriter.writerOf pre (acc ++ bs) := by
  rw [compressedCodes_unfold hl hd hlen hdlen] at h
  rcases compressedCodesLoop_cases (lit := lit) (alpha := alpha) cs pre acc with
    ⟨_, bs', h1, h2⟩ | ⟨cs₁, c, cs₂, acc', e, w', rfl, _, hn, _, h2⟩
  · rw [ES.bind_ok h2] at h
    cases he : codeOf lit 256 with
    | none => rw [lookup_table_none (by omega) he, ES.liftE_bind_error] at h; cases h
    | some eob =>
      rw [lookup_table_some (by omega) he, ES.liftE_bind_ok, BitWriter.writeVec_writerOf] at h
      cases h
      exact ⟨bs' ++ eob, h1 eob he, by rw [List.append_assoc]⟩
  · rw [ES.bind_err h2] at h; cases h

end

theorem fixedLit_length : fixedLit.length = 288 := by decide +kernel
theorem fixedDist_length : fixedDist.length = 32 := by decide +kernel

theorem alpha_length {dist : List Nat} {alpha : Option (List Nat)} (h : DistAlphabet dist alpha)
    (hd : dist.length ≤ 32) : ∀ dl, alpha = some dl → dl.length ≤ 288 := by
  intro dl hdl
  cases h with
  | unused => cases hdl
  | single a b h1 h2 =>
    cases hdl
    simp; omega
  | complete _ h1 h2 => cases hdl; omega

theorem header_length {lit dist : List Nat} {hdr : List Bool} (h : HeaderBits lit dist hdr) :
    lit.length ≤ 288 ∧ dist.length ≤ 32 := by
  cases h; constructor <;> assumption

theorem pushAll_eq {hdr : List Bool} {v : BitVector} (h : pushAll hdr BitVector.new = .ok v) :
    v = BitVector.ofBits hdr := by
  have := pushAll_ofBits hdr []
  rw [BitVector.ofBits_nil, h] at this
  exact Except.ok.inj this

theorem pushAll_new (hdr : List Bool) :
    pushAll hdr BitVector.new = .ok (BitVector.ofBits hdr) := by
  have := pushAll_ofBits hdr []
  rwa [BitVector.ofBits_nil] at this

theorem readCodesOf_ok {bs rest : List Bool} {p : CodeTree × Option CodeTree}
    (h : readCodes.exec bs = .ok p rest) : readCodesOf (BitVector.ofBits bs) = .ok p := by
  unfold readCodesOf BitVector.iter
  rw [BitProg.runIter_ok (i := 0) (by omega) h]

theorem readCodesOf_inv {bs : List Bool} {p : CodeTree × Option CodeTree}
    (h : readCodesOf (BitVector.ofBits bs) = .ok p) : ∃ rest, readCodes.exec bs = .ok p rest := by
  cases h' : readCodes.exec bs with
  | ok p' rest =>
    rw [readCodesOf_ok h'] at h
    cases h
    exact ⟨rest, rfl⟩
  | fail e =>
    obtain ⟨s, hs⟩ := BitProg.runIter_fail (bs := bs) (i := 0) (by omega) h'
    unfold readCodesOf BitVector.iter at h
    rw [hs] at h; cases h
  | starved =>
    obtain ⟨s, hs⟩ := BitProg.runIter_starved (bs := bs) (i := 0) (by omega) h'
    unfold readCodesOf BitVector.iter at h
    rw [hs] at h; cases h

/-- The stored block the writer produces: length bytes exchanged. -/
def writtenStored (off : Nat) (data : List UInt8) : List Bool :=
  lsbBits 2 0 ++ List.replicate (padLen (off + 2)) false ++
    bytesBits (BitWriter.storedHeader data.length ++ data)

theorem compressedBlock_stored {data : List UInt8} (h : data.length ≤ 65535) (pre : List UInt8)
    (acc : List Bool) :
    compressedBlock (.uncompressed data) (BitWriter.writerOf pre acc) =
      .ok () (BitWriter.writerOf pre (acc ++ writtenStored acc.length data)) := by
  rw [compressedBlock]
  rw [ES.bind_ok (BitWriter.writeBitsVal_writerOf pre acc (by omega)),
    BitWriter.writeLengthPrefixed_writerOf pre _ h]
  simp [padded, writtenStored, lsbBits]

theorem storedHeader_swap {n : Nat} (h : n ≤ 65535) (heq : n / 256 = n % 256) :
    BitWriter.storedHeader n = le16 n ++ le16 (65535 - n) := by
  unfold BitWriter.storedHeader le16
  rw [Parse.xor_ffff h]
  simp only [Nat.shiftRight_eq_div_pow, show (0xFF : Nat) = 2 ^ 8 - 1 from rfl,
    Nat.and_two_pow_sub_one_eq_mod]
  have : (65535 - n) / 256 = (65535 - n) % 256 := by omega
  simp [heq, this]

theorem compressedBlock_ok {off : Nat} {b : Block} {bs : List Bool}
    (h : BlockBits StrictLengthSym off b bs) (hst : SwapSafe b) (pre : List UInt8)
    {acc : List Bool} (hoff : acc.length % 8 = off % 8) :
    compressedBlock b (BitWriter.writerOf pre acc) =
      .ok () (BitWriter.writerOf pre (acc ++ bs)) := by
  cases h with
  | stored data hd =>
    have hst' : data.length / 256 = data.length % 256 := hst
    rw [compressedBlock_stored hd, writtenStored, storedHeader_swap hd hst']
    have : padLen (acc.length + 2) = padLen (off + 2) := by unfold padLen; omega
    rw [this]
  | fixed codes bs hc =>
    obtain ⟨lt, hlt, hl⟩ := fixedLengthTree_ok
    obtain ⟨dt, hdt, hd⟩ := fixedDistanceTree_ok
    rw [compressedBlock]
    rw [ES.bind_ok (BitWriter.writeBitsVal_writerOf pre acc (by omega)), hlt, ES.liftE_bind_ok, hdt,
      ES.liftE_bind_ok, compressedCodes_ok hl (dt := some dt) (alpha := some fixedDist) hd
        (by rw [fixedLit_length]; omega) (by intro dl h; cases h; rw [fixedDist_length]; omega) hc]
    simp
  | dynamic lit dist alpha codes trees hdr bs hh hc ha ht hcs =>
    obtain ⟨lt, dt, hr, hl, hd⟩ := readCodes_complete hh hc ha []
    rw [List.append_nil] at hr
    obtain ⟨hlen, hdl⟩ := header_length hh
    cases pushAll_eq ht
    rw [compressedBlock]
    rw [ES.bind_ok (BitWriter.writeBitsVal_writerOf pre acc (by omega)),
      ES.bind_ok (BitWriter.writeVec_writerOf pre _ hdr), readCodesOf_ok hr, ES.liftE_bind_ok]
    dsimp only
    rw [compressedCodes_ok hl hd hlen (alpha_length ha hdl) hcs]
    simp

/-- Apart from stored blocks, a success means every code had bits. -/
theorem compressedBlock_inv {b : Block} {pre : List UInt8} {acc : List Bool} {u : Unit}
    {w : BitWriter} (h : compressedBlock b (BitWriter.writerOf pre acc) = .ok u w)
    (hb : ∀ trees codes, b = .dynamicHuffman trees codes →
      ∃ bits, pushAll bits BitVector.new = .ok trees) :
    (∃ data, b = .uncompressed data ∧ data.length ≤ 65535) ∨
    (∃ lit alpha bs, TreesOf b lit alpha ∧
      CodesBits StrictLengthSym lit alpha (blockCodes b) bs) := by
  cases b with
  | uncompressed data =>
    left
    refine ⟨data, rfl, ?_⟩
    apply Decidable.byContradiction
    intro hlen
    rw [compressedBlock] at h
    rw [ES.bind_ok (BitWriter.writeBitsVal_writerOf pre acc (by omega))] at h
    unfold BitWriter.writeLengthPrefixed at h
    rw [ES.bind_ok (BitWriter.align_writerOf pre _)] at h
    have : decide (data.length ≤ 65535) = false := by simpa using hlen
    rw [this, ensure_false, ES.liftE_bind_error] at h
    cases h
  | fixedHuffman codes =>
    right
    obtain ⟨lt, hlt, hl⟩ := fixedLengthTree_ok
    obtain ⟨dt, hdt, hd⟩ := fixedDistanceTree_ok
    rw [compressedBlock] at h
    rw [ES.bind_ok (BitWriter.writeBitsVal_writerOf pre acc (by omega)), hlt, ES.liftE_bind_ok, hdt,
      ES.liftE_bind_ok] at h
    obtain ⟨bs, h1, _⟩ := compressedCodes_inv hl (dt := some dt) (alpha := some fixedDist) hd
        (by rw [fixedLit_length]; omega) (by intro dl h; cases h; rw [fixedDist_length]; omega) h
    exact ⟨_, _, bs, .fixed codes, h1⟩
  | dynamicHuffman trees codes =>
    right
    obtain ⟨bits, ht⟩ := hb trees codes rfl
    cases pushAll_eq ht
    rw [compressedBlock] at h
    rw [ES.bind_ok (BitWriter.writeBitsVal_writerOf pre acc (by omega)),
      ES.bind_ok (BitWriter.writeVec_writerOf pre _ bits)] at h
    cases hr : readCodesOf (BitVector.ofBits bits) with
    | error e => rw [hr, ES.liftE_bind_error] at h; cases h
    | ok p =>
    obtain ⟨rest, hx⟩ := readCodesOf_inv hr
    have hs := readCodes_sound bits
    rw [hx] at hs
    obtain ⟨lit, dist, alpha, hdr, g1, g2, g3, g4, g5, g6⟩ := hs
    rw [hr, ES.liftE_bind_ok] at h
    obtain ⟨hlen, hdl⟩ := header_length g1
    obtain ⟨bs, h1, _⟩ := compressedCodes_inv g5 g6 hlen (alpha_length g3 hdl) h
    exact ⟨lit, alpha, bs, .dynamic lit dist alpha codes _ hdr rest g1 g2 g3 (by rw [← g4]; exact ht),
      h1⟩

/-! ### Relating the strict and the tolerant format -/

theorem CodeBits.mono {lit : List Nat} {alpha : Option (List Nat)} {c : Code} {bs : List Bool}
    (h : CodeBits StrictLengthSym lit alpha c bs) : CodeBits LengthSym lit alpha c bs := by
  cases h with
  | literal _ _ hc => exact .literal _ _ hc
  | reference r i v j w dl lc dc ha hls hlc hds hdc =>
    exact .reference r i v j w dl lc dc ha hls.1 hlc hds hdc

theorem CodesBits.mono {lit : List Nat} {alpha : Option (List Nat)} {cs : List Code}
    {bs : List Bool} (h : CodesBits StrictLengthSym lit alpha cs bs) :
    CodesBits LengthSym lit alpha cs bs := by
  induction h with
  | nil c hc => exact .nil c hc
  | cons c cs a b h1 _ ih => exact .cons c cs a b (CodeBits.mono h1) ih

theorem BlockBits.mono {off : Nat} {b : Block} {bs : List Bool}
    (h : BlockBits StrictLengthSym off b bs) : BlockBits LengthSym off b bs := by
  cases h with
  | stored data hd => exact .stored data hd
  | fixed codes bs hc => exact .fixed codes bs (CodesBits.mono hc)
  | dynamic lit dist alpha codes trees hdr bs hh hc ha ht hcs =>
    exact .dynamic lit dist alpha codes trees hdr bs hh hc ha ht (CodesBits.mono hcs)

theorem StreamBits.mono {off : Nat} {blocks : List Block} {bs : List Bool}
    (h : StreamBits StrictLengthSym off blocks bs) : StreamBits LengthSym off blocks bs := by
  induction h with
  | last off b bs hb => exact .last off b bs (BlockBits.mono hb)
  | cons off b rest bs rs hb _ ih => exact .cons off b rest bs rs (BlockBits.mono hb) ih

theorem CodeOk.exists_codes {lit : List Nat} {alpha : Option (List Nat)} {cs : List Code}
    (h : ∀ c ∈ cs, CodeOk lit alpha c) (he : codeOf lit 256 ≠ none) :
    ∃ bs, CodesBits StrictLengthSym lit alpha cs bs := by
  induction cs with
  | nil =>
    cases hc : codeOf lit 256 with
    | none => exact absurd hc he
    | some c => exact ⟨c, .nil c hc⟩
  | cons c cs ih =>
    obtain ⟨a, ha⟩ := h c (by simp)
    obtain ⟨b, hb⟩ := ih (fun c hc => h c (by simp [hc]))
    exact ⟨a ++ b, .cons c cs a b ha hb⟩

theorem fixed_eob : codeOf fixedLit 256 ≠ none := by decide +kernel

theorem encodable_iff (off : Nat) (b : Block) :
    Encodable b ↔ ∃ bs, BlockBits StrictLengthSym off b bs := by
  constructor
  · intro h
    cases h with
    | stored data hd => exact ⟨_, .stored data hd⟩
    | fixed codes hc =>
      obtain ⟨bs, h⟩ := CodeOk.exists_codes hc fixed_eob
      exact ⟨_, .fixed codes bs h⟩
    | dynamic lit dist alpha codes trees hdr hh hc ha ht he hcs =>
      obtain ⟨bs, h⟩ := CodeOk.exists_codes hcs he
      exact ⟨_, .dynamic lit dist alpha codes trees hdr bs hh hc ha ht h⟩
  · rintro ⟨bs, h⟩
    cases h with
    | stored data hd => exact .stored data hd
    | fixed codes bs hc => exact .fixed codes (CodesBits.ok hc).1
    | dynamic lit dist alpha codes trees hdr bs hh hc ha ht hcs =>
      exact .dynamic lit dist alpha codes trees hdr hh hc ha ht (CodesBits.ok hcs).2
        (CodesBits.ok hcs).1

theorem StreamBits.exists {blocks : List Block} (hne : blocks ≠ [])
    (h : ∀ b ∈ blocks, Encodable b) (off : Nat) :
    ∃ bits, StreamBits StrictLengthSym off blocks bits := by
  induction blocks generalizing off with
  | nil => exact absurd rfl hne
  | cons b blocks ih =>
    obtain ⟨bs, hb⟩ := (encodable_iff (off + 1) b).1 (h b (by simp))
    by_cases hnil : blocks = []
    · subst hnil; exact ⟨_, .last off b bs hb⟩
    · obtain ⟨rs, hr⟩ := ih hnil (fun b hb => h b (by simp [hb])) (off + 1 + bs.length)
      exact ⟨_, .cons off b blocks bs rs hb hr⟩

theorem StreamBits.ne_nil {L : Nat → Nat → Nat → Prop} {off : Nat} {blocks : List Block}
    {bits : List Bool} (h : StreamBits L off blocks bits) : blocks ≠ [] := by
  cases h <;> simp

theorem StreamBits.encodable {off : Nat} {blocks : List Block} {bits : List Bool}
    (h : StreamBits StrictLengthSym off blocks bits) : ∀ b ∈ blocks, Encodable b := by
  induction h with
  | last off b bs hb =>
    intro x hx
    rw [List.mem_singleton.1 hx]
    exact (encodable_iff _ b).2 ⟨bs, hb⟩
  | cons off b rest bs rs hb _ ih =>
    intro x hx
    rcases List.mem_cons.1 hx with rfl | hx
    · exact (encodable_iff _ _).2 ⟨bs, hb⟩
    · exact ih x hx

/-! ### Streams -/

theorem recompressLoop_ok {off : Nat} {blocks : List Block} {bits : List Bool}
    (h : StreamBits StrictLengthSym off blocks bits) (hst : ∀ b ∈ blocks, SwapSafe b)
    (pre : List UInt8) {acc : List Bool} (hoff : acc.length % 8 = off % 8) :
    recompressLoop blocks (BitWriter.writerOf pre acc) =
      .ok () (BitWriter.writerOf pre (acc ++ bits)) := by
  induction h generalizing acc with
  | last off b bs hb =>
    rw [recompressLoop, ES.bind_ok (BitWriter.writeBit_writerOf pre acc _),
      ES.bind_ok (compressedBlock_ok hb (hst b (by simp)) pre
        (by rw [List.length_append, List.length_singleton]; omega))]
    simp [recompressLoop]
  | cons off b rest bs rs hb hr ih =>
    have hne : rest.isEmpty = false := by
      have := StreamBits.ne_nil hr
      cases rest <;> simp_all
    rw [recompressLoop, ES.bind_ok (BitWriter.writeBit_writerOf pre acc _),
      ES.bind_ok (compressedBlock_ok hb (hst b (by simp)) pre
        (by rw [List.length_append, List.length_singleton]; omega)),
      ih (fun b hb => hst b (by simp [hb]))
        (by simp only [List.length_append, List.length_singleton]; omega), hne]
    simp

theorem compressedBlock_total {b : Block} (h : Encodable b) (pre : List UInt8) (acc : List Bool) :
    ∃ bs, compressedBlock b (BitWriter.writerOf pre acc) =
      .ok () (BitWriter.writerOf pre (acc ++ bs)) := by
  cases hb : b with
  | uncompressed data =>
    subst hb
    cases h with
    | stored _ hd => exact ⟨_, compressedBlock_stored hd pre acc⟩
  | fixedHuffman codes =>
    obtain ⟨bs, hbs⟩ := (encodable_iff acc.length b).1 h
    subst hb
    exact ⟨bs, compressedBlock_ok hbs trivial pre rfl⟩
  | dynamicHuffman trees codes =>
    obtain ⟨bs, hbs⟩ := (encodable_iff acc.length b).1 h
    subst hb
    exact ⟨bs, compressedBlock_ok hbs trivial pre rfl⟩

theorem recompressLoop_total {blocks : List Block} (h : ∀ b ∈ blocks, Encodable b)
    (pre : List UInt8) (acc : List Bool) :
    ∃ bits, recompressLoop blocks (BitWriter.writerOf pre acc) =
      .ok () (BitWriter.writerOf pre (acc ++ bits)) := by
  induction blocks generalizing acc with
  | nil => exact ⟨[], by simp [recompressLoop]⟩
  | cons b blocks ih =>
    obtain ⟨bs, h1⟩ := compressedBlock_total (h b (by simp)) pre (acc ++ [blocks.isEmpty])
    obtain ⟨rs, h2⟩ := ih (fun b hb => h b (by simp [hb])) (acc ++ [blocks.isEmpty] ++ bs)
    refine ⟨[blocks.isEmpty] ++ bs ++ rs, ?_⟩
    rw [recompressLoop, ES.bind_ok (BitWriter.writeBit_writerOf pre acc _), ES.bind_ok h1, h2]
    simp

theorem recompress_of_loop {blocks : List Block} {bits : List Bool}
    (h : recompressLoop blocks (BitWriter.writerOf [] []) = .ok () (BitWriter.writerOf [] bits)) :
    recompress blocks = .ok (packBits (padded bits)) := by
  have h' : (do recompressLoop blocks; BitWriter.align : EStateM Fail BitWriter Unit)
      (BitWriter.new Sink.vec) = .ok () (BitWriter.writerOf [] (padded bits)) := by
    rw [show BitWriter.new Sink.vec = BitWriter.writerOf [] [] from BitWriter.new_eq [],
      ES.bind_ok h, BitWriter.align_writerOf]
  unfold recompress
  rw [h']
  dsimp only
  rw [BitWriter.intoInner_writerOf [] (padded_length bits)]
  rfl

/-! ### Length estimates -/

theorem treeToLengths_eq {lens : List Nat} {t : CodeTree} (h : CodeTree.IsTree lens t)
    (hl : lens.length ≤ 288) :
    treeToLengths t = .ok ((List.range 288).map fun s => (codeOf lens s).map List.length) := by
  unfold treeToLengths
  rw [invert_table h hl, Ex.ok_bind, Ex.pure_eq, table, List.map_map]
  congr 1
  apply List.map_congr_left
  intro s _
  cases hc : codeOf lens s with
  | none => simp [hc]
  | some c =>
    obtain ⟨hs, h1, _⟩ := CodeTree.codeOf_lt hc
    have := h.le15 _ (List.getElem_mem hs)
    have hlen : (BitVector.ofBits c).len = c.length := by simp [BitVector.ofBits]
    simp only [Function.comp_apply, hc, Option.map_some, hlen, Option.some.injEq]
    omega

theorem index_lengths (lens : List Nat) {s : Nat} (h : s < 288) :
    index ((List.range 288).map fun s => (codeOf lens s).map List.length) s =
      .ok ((codeOf lens s).map List.length) := by
  rw [index_eq_ok]
  simp [h]

theorem Lengths.new_eq {lit dist : List Nat} {lt dt : CodeTree} (hl : CodeTree.IsTree lit lt)
    (hd : CodeTree.IsTree dist dt) (hl288 : lit.length ≤ 288) (hd288 : dist.length ≤ 288) :
    ∃ m, Lengths.new lt dt = .ok
      { length := (List.range 288).map fun s => (codeOf lit s).map List.length
        distance := (List.range 288).map fun s => (codeOf dist s).map List.length
        meanLiteralLen := m } := by
  unfold Lengths.new
  rw [treeToLengths_eq hl hl288, Ex.ok_bind, treeToLengths_eq hd hd288]
  exact ⟨_, rfl⟩

theorem length_le15 {lens : List Nat} (h : ∀ l ∈ lens, l ≤ 15) {s : Nat} {c : List Bool}
    (hc : codeOf lens s = some c) : c.length ≤ 15 := by
  obtain ⟨hs, h1, _⟩ := CodeTree.codeOf_lt hc
  have := h _ (List.getElem_mem hs)
  omega

theorem lengthOf_some {lit dist : List Nat} (hl : ∀ l ∈ lit, l ≤ 15) (hd : ∀ l ∈ dist, l ≤ 15)
    {c : Code} {bs : List Bool} (h : CodeBits StrictLengthSym lit (some dist) c bs) (m : Nat) :
    ∃ n, Lengths.lengthOf
      { length := (List.range 288).map fun s => (codeOf lit s).map List.length
        distance := (List.range 288).map fun s => (codeOf dist s).map List.length
        meanLiteralLen := m } c = .ok (some n) ∧
      bs.length = n + codeRunExtra c := by
  cases h with
  | literal b _ hc =>
    have hb : b.toNat < 256 := b.toNat_lt
    refine ⟨_, by rw [Lengths.lengthOf, index_lengths _ (by omega), hc]; rfl, rfl⟩
  | reference r i v j w dl lc dc ha hls hlc hds hdc =>
    cases ha
    obtain ⟨r1, r2⟩ := run_range r
    obtain ⟨i', v', hls', e1, e2, h258'⟩ := encodeRunLength_spec r1 r2
    obtain ⟨rfl, rfl⟩ := LengthSym.unique hls.1 hls' (fun h => by simp [hls.2 h, h258' h])
    obtain ⟨d1, d2⟩ := DistSym.range hds
    obtain ⟨j', w', hds', e3⟩ := encodeDistance_spec d1 d2
    obtain ⟨rfl, rfl⟩ := DistSym.unique hds hds'
    have hi := hls'.1
    have hj := hds.1
    have l1 := length_le15 hl hlc
    have l2 := length_le15 hd hdc
    have l3 := (dist_table ⟨j, hj⟩).1
    dsimp only at l3
    have hrx : lengthExtra.getD i 0 = runExtraBits r.run := by
      have : ∀ i : Fin 29, ∀ v : Fin 32, v.val < 2 ^ lengthExtra.getD i.val 0 →
          (lengthBase.getD i.val 0 + v.val = 258 → i.val = 28) →
          lengthExtra.getD i.val 0 = runExtraBits (lengthBase.getD i.val 0 + v.val) := by
        decide +kernel
      have hv : v < 32 := by
        have h5 := (length_table ⟨i, hi⟩).1
        dsimp only at h5
        have : 2 ^ lengthExtra.getD i 0 ≤ 2 ^ 5 := Nat.pow_le_pow_right (by omega) h5
        have := hls'.2.1
        omega
      have := this ⟨i, hi⟩ ⟨v, hv⟩ hls'.2.1 (by rw [← hls'.2.2]; exact h258')
      rwa [← hls'.2.2] at this
    refine ⟨lc.length + dc.length + distExtra.getD j 0, ?_, ?_⟩
    · rw [Lengths.lengthOf, e1, Ex.ok_bind]
      dsimp only
      rw [index_lengths _ (by omega), Ex.ok_bind, hlc, Option.map_some]
      dsimp only
      rw [e3, Ex.ok_bind]
      dsimp only
      rw [index_lengths _ (by omega), Ex.ok_bind, hdc, Option.map_some]
      dsimp only
      rw [if_neg (by omega)]
      rfl
    · simp only [List.length_append, lsbBits_length, hrx]
      rw [show codeRunExtra (.reference r) = runExtraBits r.run from rfl]; omega

theorem lengthOf_none {lit dist : List Nat} {c : Code}
    (hr : ∀ r, c = .reference r → RefOk r) (h : ¬ CodeOk lit (some dist) c) (m : Nat) :
    Lengths.lengthOf
      { length := (List.range 288).map fun s => (codeOf lit s).map List.length
        distance := (List.range 288).map fun s => (codeOf dist s).map List.length
        meanLiteralLen := m } c = .ok none := by
  cases c with
  | literal b =>
    have hb : b.toNat < 256 := b.toNat_lt
    rw [Lengths.lengthOf, index_lengths _ (by omega)]
    cases hc : codeOf lit b.toNat with
    | none => rfl
    | some c => exact absurd ⟨c, .literal b c hc⟩ h
  | reference r =>
    obtain ⟨d1, d2, r1, r2⟩ := hr r rfl
    obtain ⟨i, v, hls, e1, e2, h258⟩ := encodeRunLength_spec r1 r2
    obtain ⟨j, w, hds, e3⟩ := encodeDistance_spec d1 d2
    have hi := hls.1
    have hj := hds.1
    rw [Lengths.lengthOf, e1, Ex.ok_bind]
    dsimp only
    rw [index_lengths _ (by omega), Ex.ok_bind]
    cases hlc : codeOf lit (257 + i) with
    | none => rfl
    | some lc =>
      rw [Option.map_some]
      dsimp only
      rw [e3, Ex.ok_bind]
      dsimp only
      rw [index_lengths _ (by omega), Ex.ok_bind]
      cases hdc : codeOf dist j with
      | none => rfl
      | some dc => exact absurd ⟨_, .reference r i v j w dist lc dc rfl ⟨hls, h258⟩ hlc hds hdc⟩ h

/-! ### When parsing and recompressing is the identity -/

theorem block_prefix {off : Nat} {b : Block} {bs bs' X Y : List Bool}
    (h : BlockBits LengthSym off b bs) (h' : BlockBits LengthSym off b bs')
    (e : bs ++ X = bs' ++ Y) : bs = bs' := by
  have fin : X = Y → bs = bs' := by
    rintro rfl
    exact List.append_cancel_right e
  apply fin
  cases h with
  | stored data hd =>
    cases h' with
    | stored _ _ => exact List.append_cancel_left e
  | fixed codes c1 hc =>
    cases h' with
    | fixed _ c2 hc' =>
      obtain ⟨lt, hlt, hl⟩ := fixedLengthTree_ok
      obtain ⟨dt, hdt, hd⟩ := fixedDistanceTree_ok
      rw [List.append_assoc, List.append_assoc] at e
      have e' := List.append_cancel_left e
      have q1 := Parse.exec_scanLoop hl (dt := some dt) (alpha := some fixedDist) hd hc
        (fuel := codes.length + 1) (by omega) [] X
      have q2 := Parse.exec_scanLoop hl (dt := some dt) (alpha := some fixedDist) hd hc'
        (fuel := codes.length + 1) (by omega) [] Y
      rw [e', q2] at q1
      cases q1; rfl
  | dynamic lit dist alpha codes trees hdr c1 hh hc ha ht hcs =>
    cases h' with
    | dynamic lit' dist' alpha' _ _ hdr' c2 hh' hc' ha' ht' hcs' =>
      have he : hdr = hdr' := by
        have := (pushAll_eq ht).symm.trans (pushAll_eq ht')
        exact BitVector.ofBits_inj.1 this
      subst he
      simp only [List.append_assoc] at e
      have e' := List.append_cancel_left (List.append_cancel_left e)
      obtain ⟨lt, dt, hr, hl, hd⟩ := readCodes_complete hh hc ha []
      obtain ⟨lt', dt', hr', hl', hd'⟩ := readCodes_complete hh' hc' ha' []
      rw [hr] at hr'
      cases hr'
      have q1 := Parse.exec_scanLoop hl hd hcs (fuel := codes.length + 1) (by omega) [] X
      have q2 := Parse.exec_scanLoop hl' hd' hcs' (fuel := codes.length + 1) (by omega) [] Y
      rw [e', q2] at q1
      cases q1; rfl

/-- A parsed block that is written without failure is encodable. -/
theorem encodable_of_written {off : Nat} {b : Block} {bs : List Bool}
    (hb : BlockBits LengthSym off b bs) {pre : List UInt8} {acc : List Bool} {u : Unit}
    {w : BitWriter} (h : compressedBlock b (BitWriter.writerOf pre acc) = .ok u w) :
    Encodable b := by
  rcases compressedBlock_inv h (by
    rintro trees codes rfl
    cases hb with
    | dynamic lit dist alpha _ _ hdr _ _ _ _ ht _ => exact ⟨hdr, ht⟩) with
    ⟨data, rfl, hd⟩ | ⟨lit, alpha, cb, ht, hc⟩
  · exact .stored data hd
  · obtain ⟨h1, h2⟩ := CodesBits.ok hc
    cases ht with
    | fixed codes => exact .fixed codes h1
    | dynamic lit dist alpha codes trees hdr extra hh hcl ha hp =>
      cases hb with
      | dynamic lit' dist' alpha' _ _ hdr' _ hh' hc' ha' ht' _ =>
        have he : hdr ++ extra = hdr' := by
          have := (pushAll_eq hp).symm.trans (pushAll_eq ht')
          exact BitVector.ofBits_inj.1 this
        obtain ⟨lt, dt, hr, _, _⟩ := readCodes_complete hh hcl ha extra
        obtain ⟨lt', dt', hr', _, _⟩ := readCodes_complete hh' hc' ha' []
        rw [List.append_nil, ← he, hr] at hr'
        cases hr'
        rw [List.append_nil] at hp
        exact .dynamic lit dist alpha codes trees hdr hh hcl ha hp h2 h1

theorem storedHeader_eq {n : Nat} (h : n ≤ 65535)
    (e : BitWriter.storedHeader n = le16 n ++ le16 (65535 - n)) : n / 256 = n % 256 := by
  unfold BitWriter.storedHeader le16 at e
  simp only [Nat.shiftRight_eq_div_pow, show (0xFF : Nat) = 2 ^ 8 - 1 from rfl,
    Nat.and_two_pow_sub_one_eq_mod, List.cons_append, List.nil_append, List.cons.injEq] at e
  have h1 := congrArg UInt8.toNat e.1
  simp [Nat.toUInt8] at h1
  omega

theorem recompressLoop_encodable {off : Nat} {blocks : List Block} {bits : List Bool}
    (h : StreamBits LengthSym off blocks bits) {pre : List UInt8} {acc : List Bool} {u : Unit}
    {w : BitWriter} (hw : recompressLoop blocks (BitWriter.writerOf pre acc) = .ok u w) :
    ∀ b ∈ blocks, Encodable b := by
  induction h generalizing acc with
  | last off b bs hb =>
    rw [recompressLoop, ES.bind_ok (BitWriter.writeBit_writerOf pre acc _), ES.bind_eq_ok] at hw
    obtain ⟨u1, w1, h1, _⟩ := hw
    intro x hx
    rw [List.mem_singleton.1 hx]
    exact encodable_of_written hb h1
  | cons off b rest bs rs hb _ ih =>
    rw [recompressLoop, ES.bind_ok (BitWriter.writeBit_writerOf pre acc _), ES.bind_eq_ok] at hw
    obtain ⟨u1, w1, h1, h2⟩ := hw
    have henc := encodable_of_written hb h1
    obtain ⟨bs', h3⟩ := compressedBlock_total henc pre (acc ++ [rest.isEmpty])
    rw [h3] at h1
    cases h1
    intro x hx
    rcases List.mem_cons.1 hx with rfl | hx
    · exact henc
    · exact ih h2 x hx

theorem compressedBlock_same {off : Nat} {b : Block} {bs wb X Y : List Bool}
    (hb : BlockBits LengthSym off b bs) {pre : List UInt8} {acc : List Bool}
    (hoff : acc.length % 8 = off % 8)
    (hw : compressedBlock b (BitWriter.writerOf pre acc) =
      .ok () (BitWriter.writerOf pre (acc ++ wb)))
    (hinj : ∀ a b, BitWriter.writerOf pre a = BitWriter.writerOf pre b → a = b)
    (e : bs ++ X = wb ++ Y) :
    BlockBits StrictLengthSym off b bs ∧ SwapSafe b ∧ wb = bs := by
  have henc := encodable_of_written hb hw
  have nonstored : (∀ data, b ≠ .uncompressed data) →
      BlockBits StrictLengthSym off b bs ∧ SwapSafe b ∧ wb = bs := by
    intro hns
    have hsafe : SwapSafe b := by
      cases b with
      | uncompressed data => exact absurd rfl (hns data)
      | fixedHuffman _ => trivial
      | dynamicHuffman _ _ => trivial
    obtain ⟨bs', hs⟩ := (encodable_iff off b).1 henc
    have h2 := compressedBlock_ok hs hsafe pre hoff
    rw [hw] at h2
    have h3 : wb = bs' := by
      have := hinj _ _ (EStateM.Result.ok.inj h2).2
      exact List.append_cancel_left this
    subst h3
    have := block_prefix hb (BlockBits.mono hs) e
    subst this
    exact ⟨hs, hsafe, rfl⟩
  cases hb with
  | stored data hd =>
    rw [compressedBlock_stored hd] at hw
    have h3 : writtenStored acc.length data = wb := by
      have := hinj _ _ (EStateM.Result.ok.inj hw).2
      exact List.append_cancel_left this
    subst h3
    have hp : padLen (acc.length + 2) = padLen (off + 2) := by unfold padLen; omega
    rw [writtenStored, hp] at e ⊢
    have hlen : (bytesBits (le16 data.length ++ le16 (65535 - data.length) ++ data)).length =
        (bytesBits (BitWriter.storedHeader data.length ++ data)).length := by
      simp [bytesBits_length, le16, BitWriter.storedHeader]
    simp only [List.append_assoc] at e
    have e1 := List.append_cancel_left (List.append_cancel_left e)
    have e2 := (List.append_inj e1 (by simpa using hlen)).1
    have e3 := bytesBits_inj e2
    rw [← List.append_assoc] at e3
    have e4 := List.append_cancel_right e3
    have hsw : data.length / 256 = data.length % 256 := storedHeader_eq hd e4.symm
    refine ⟨.stored data hd, hsw, ?_⟩
    rw [storedHeader_swap hd hsw]
  | fixed codes bs hc => exact nonstored (by simp)
  | dynamic lit dist alpha codes trees hdr bs hh hc ha ht hcs => exact nonstored (by simp)

theorem recompressLoop_same {off : Nat} {blocks : List Block} {bits wb X Y : List Bool}
    (h : StreamBits LengthSym off blocks bits) {pre : List UInt8} {acc : List Bool}
    (hoff : acc.length % 8 = off % 8)
    (hinj : ∀ a b, BitWriter.writerOf pre a = BitWriter.writerOf pre b → a = b)
    (hw : recompressLoop blocks (BitWriter.writerOf pre acc) =
      .ok () (BitWriter.writerOf pre (acc ++ wb)))
    (e : bits ++ X = wb ++ Y) :
    StreamBits StrictLengthSym off blocks bits ∧ ∀ b ∈ blocks, SwapSafe b := by
  induction h generalizing acc wb X Y with
  | last off b bs hb =>
    have henc := recompressLoop_encodable (.last off b bs hb) hw b (by simp)
    rw [recompressLoop, ES.bind_ok (BitWriter.writeBit_writerOf pre acc _)] at hw
    obtain ⟨bs', h3⟩ := compressedBlock_total henc pre (acc ++ [([] : List Block).isEmpty])
    rw [ES.bind_ok h3] at hw
    have h4 : wb = true :: bs' := by
      have := hinj _ _ (EStateM.Result.ok.inj hw).2
      simp only [List.append_assoc] at this
      exact (List.append_cancel_left this).symm
    subst h4
    obtain ⟨s1, s2, _⟩ := compressedBlock_same hb
      (by rw [List.length_append, List.length_singleton]; omega) h3 hinj (List.cons.inj e).2
    refine ⟨.last off b bs s1, ?_⟩
    intro x hx
    rw [List.mem_singleton.1 hx]; exact s2
  | cons off b rest bs rs hb hr ih =>
    have hne : rest.isEmpty = false := by
      have := StreamBits.ne_nil hr
      cases rest <;> simp_all
    have henc := recompressLoop_encodable (.cons off b rest bs rs hb hr) hw
    rw [recompressLoop, ES.bind_ok (BitWriter.writeBit_writerOf pre acc _)] at hw
    obtain ⟨bs', h3⟩ := compressedBlock_total (henc b (by simp)) pre (acc ++ [rest.isEmpty])
    rw [ES.bind_ok h3] at hw
    obtain ⟨rs', h5⟩ := recompressLoop_total (blocks := rest)
      (fun b hb => henc b (List.mem_cons_of_mem _ hb)) pre (acc ++ [rest.isEmpty] ++ bs')
    have h4 : wb = false :: (bs' ++ rs') := by
      rw [h5, hne] at hw
      have := hinj _ _ (EStateM.Result.ok.inj hw).2
      simp only [List.append_assoc] at this
      exact (List.append_cancel_left this).symm
    subst h4
    simp only [List.cons_append, List.append_assoc, List.cons.injEq, true_and] at e
    obtain ⟨s1, s2, s3⟩ := compressedBlock_same hb
      (by rw [List.length_append, List.length_singleton]; omega) h3 hinj e
    subst s3
    obtain ⟨t1, t2⟩ := ih (by simp only [List.length_append, List.length_singleton]; omega) h5
      (List.append_cancel_left e)
    refine ⟨.cons off b rest bs' rs s1 t1, ?_⟩
    intro x hx
    rcases List.mem_cons.1 hx with rfl | hx
    · exact s2
    · exact t2 x hx

theorem writerOf_inj {pre : List UInt8} (a b : List Bool)
    (h : BitWriter.writerOf pre a = BitWriter.writerOf pre b) : a = b := by
  obtain ⟨a1, a2, rfl, ha1, ha2⟩ := BitWriter.split8 a
  obtain ⟨b1, b2, rfl, hb1, hb2⟩ := BitWriter.split8 b
  rw [BitWriter.writerOf_append pre ha1 ha2, BitWriter.writerOf_append pre hb1 hb2] at h
  simp only [BitWriter.mk.injEq, Sink.mk.injEq, List.append_cancel_left_eq, and_true] at h
  obtain ⟨h1, h2⟩ := h
  have e2 := BitVector.ofBits_inj.1 h2
  have e1 : a1 = b1 := by
    have := congrArg bytesBits h1
    rw [bytesBits_packBits, bytesBits_packBits, padded, padded] at this
    have p1 : padLen a1.length = 0 := by unfold padLen; omega
    have p2 : padLen b1.length = 0 := by unfold padLen; omega
    simpa [p1, p2] using this
  rw [e1, e2]

theorem loop_of_recompress {blocks : List Block} {out : List UInt8}
    (h : recompress blocks = .ok out) :
    ∃ w, recompressLoop blocks (BitWriter.writerOf [] []) = .ok () w := by
  unfold recompress at h
  rw [show BitWriter.new Sink.vec = BitWriter.writerOf [] [] from BitWriter.new_eq []] at h
  cases hl : recompressLoop blocks (BitWriter.writerOf [] []) with
  | ok u w => exact ⟨w, rfl⟩
  | error e w =>
    rw [ES.bind_err hl] at h
    cases h

end Serialise

end Rezip
