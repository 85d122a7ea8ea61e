import Verif.Props.Serialise

/-!
# C27: exactly what happens to a code that the trees do not have
-/

namespace Rezip

open Spec Parse Huffman Serialise

/-- What writing a code that cannot be written does. -/
inductive Complaint (lit : List Nat) (alpha : Option (List Nat)) : Code → Fail → Prop
  | literal (x : UInt8) : codeOf lit x.toNat = none → Complaint lit alpha (.literal x) (.err .invalidLiteral)
  | length (r : Ref) (i v : Nat) : StrictLengthSym r.run i v → codeOf lit (257 + i) = none →
      Complaint lit alpha (.reference r) (.panic .unwrap)
  | range (r : Ref) (i v : Nat) : StrictLengthSym r.run i v → codeOf lit (257 + i) ≠ none →
      (r.dist.toNat = 0 ∨ 32768 < r.dist.toNat) → Complaint lit alpha (.reference r) (.panic .overflow)
  | noTree (r : Ref) (i v : Nat) : StrictLengthSym r.run i v → codeOf lit (257 + i) ≠ none →
      1 ≤ r.dist.toNat → r.dist.toNat ≤ 32768 → alpha = none →
      Complaint lit alpha (.reference r) (.err .noDistanceTree)
  | distance (r : Ref) (i v j w : Nat) (dl : List Nat) : StrictLengthSym r.run i v →
      codeOf lit (257 + i) ≠ none → DistSym r.dist.toNat j w → alpha = some dl → codeOf dl j = none →
      Complaint lit alpha (.reference r) (.panic .unwrap)

theorem compressedCode_complaint {lit : List Nat} {alpha : Option (List Nat)} (c : Code)
    (hn : ¬ CodeOk lit alpha c) : ∃ e, Complaint lit alpha c e ∧ ∀ pre acc,
      ∃ w, compressedCode (table lit) (alpha.map table) c (BitWriter.writerOf pre acc) = .error e w := by
  cases c with
  | literal b =>
    have hb : b.toNat < 256 := b.toNat_lt
    cases hc : codeOf lit b.toNat with
    | some c => exact absurd ⟨_, .literal b c hc⟩ hn
    | none =>
      refine ⟨_, .literal b hc, fun pre acc => ?_⟩
      simp only [compressedCode]
      rw [index_table lit (by omega), ES.liftE_bind_ok, hc]
      exact ⟨_, rfl⟩
  | reference r =>
    obtain ⟨h3, h258⟩ := run_range r
    obtain ⟨i, v, hs⟩ := strict_exists h3 h258
    have hdlt : r.dist.toNat < 65536 := r.dist.toNat_lt
    simp only [compressedCode]
    cases hlc : codeOf lit (257 + i) with
    | none => exact ⟨_, .length r i v hs hlc, fun pre acc => ⟨_, ES.bind_err (encodeRun_none hs hlc _)⟩⟩
    | some lc =>
      have hl : codeOf lit (257 + i) ≠ none := by rw [hlc]; simp
      by_cases hrange : r.dist.toNat = 0 ∨ 32768 < r.dist.toNat
      · refine ⟨_, .range r i v hs hl hrange, fun pre acc => ?_⟩
        rw [ES.bind_ok (encodeRun_ok hs hlc pre acc)]
        exact ⟨_, encodeDistance_range hrange hdlt _ _⟩
      · have d1 : 1 ≤ r.dist.toNat := by omega
        have d2 : r.dist.toNat ≤ 32768 := by omega
        cases halpha : alpha with
        | none =>
          refine ⟨_, .noTree r i v hs hl d1 d2 rfl, fun pre acc => ?_⟩
          rw [ES.bind_ok (encodeRun_ok hs hlc pre acc)]
          exact ⟨_, encodeDistance_notree d1 d2 _⟩
        | some dl =>
          obtain ⟨j, w, hd, _⟩ := encodeDistance_spec d1 d2
          cases hdc : codeOf dl j with
          | some dc => exact absurd ⟨_, .reference r i v j w dl lc dc halpha hs hlc hd hdc⟩ hn
          | none =>
            refine ⟨_, .distance r i v j w dl hs hl hd rfl hdc, fun pre acc => ?_⟩
            rw [ES.bind_ok (encodeRun_ok hs hlc pre acc)]
            exact ⟨_, encodeDistance_none hd hdc _⟩

theorem TreesOf.outcome {b : Block} {lit : List Nat} {alpha : Option (List Nat)}
    (h : TreesOf b lit alpha) (before : List Bool) :
    ((∀ c ∈ blockCodes b, CodeOk lit alpha c) ∧ codeOf lit 256 ≠ none ∧ ∃ w, writeBlock before b = .ok () w) ∨
    ((∀ c ∈ blockCodes b, CodeOk lit alpha c) ∧ codeOf lit 256 = none ∧
      ∃ w, writeBlock before b = .error (.panic .unwrap) w) ∨
    ∃ cs₁ c cs₂ e, blockCodes b = cs₁ ++ c :: cs₂ ∧ (∀ c ∈ cs₁, CodeOk lit alpha c) ∧ ¬ CodeOk lit alpha c ∧
      Complaint lit alpha c e ∧ ∃ w, writeBlock before b = .error e w := by
  have loop : ∀ lt dt, CodeTree.IsTree lit lt → IsOptTree alpha dt → lit.length ≤ 288 →
      (∀ dl, alpha = some dl → dl.length ≤ 288) → ∀ acc,
      ((∀ c ∈ blockCodes b, CodeOk lit alpha c) ∧ codeOf lit 256 ≠ none ∧
        ∃ w, compressedCodes lt dt (blockCodes b) (BitWriter.writerOf [] acc) = .ok () w) ∨
      ((∀ c ∈ blockCodes b, CodeOk lit alpha c) ∧ codeOf lit 256 = none ∧
        ∃ w, compressedCodes lt dt (blockCodes b) (BitWriter.writerOf [] acc) = .error (.panic .unwrap) w) ∨
      ∃ cs₁ c cs₂ e, blockCodes b = cs₁ ++ c :: cs₂ ∧ (∀ c ∈ cs₁, CodeOk lit alpha c) ∧
        ¬ CodeOk lit alpha c ∧ Complaint lit alpha c e ∧
        ∃ w, compressedCodes lt dt (blockCodes b) (BitWriter.writerOf [] acc) = .error e w := by
    intro lt dt hl hd hlen hdlen acc
    rw [compressedCodes_unfold hl hd hlen hdlen]
    rcases compressedCodesLoop_cases (lit := lit) (alpha := alpha) (blockCodes b) [] acc with
      ⟨hall, bs, _, hw⟩ | ⟨cs₁, c, cs₂, acc', e, w, h2, g1, g2, g3, g4⟩
    · rw [ES.bind_ok hw]
      cases he : codeOf lit 256 with
      | none =>
        refine .inr (.inl ⟨hall, rfl, ?_⟩)
        rw [lookupUnwrap, index_table lit (by omega), he]
        exact ⟨_, rfl⟩
      | some eob =>
        refine .inl ⟨hall, by simp, ?_⟩
        rw [lookupUnwrap, index_table lit (by omega), he]
        exact ⟨_, BitWriter.writeVec_writerOf [] _ eob⟩
    · obtain ⟨e', hc, hw⟩ := compressedCode_complaint c g2
      obtain ⟨w', hw'⟩ := hw [] acc'
      rw [hw'] at g3
      cases g3
      exact .inr (.inr ⟨cs₁, c, cs₂, _, h2, g1, g2, hc, _, ES.bind_err g4⟩)
  rw [writeBlock_eq]
  cases h with
  | fixed codes =>
    obtain ⟨lt, hlt, hl⟩ := fixedLengthTree_ok
    obtain ⟨dt, hdt, hd⟩ := fixedDistanceTree_ok
    rw [compressedBlock, ES.bind_ok (BitWriter.writeBitsVal_writerOf [] before (by omega)), hlt,
      ES.liftE_bind_ok, hdt, ES.liftE_bind_ok]
    exact loop lt (some dt) hl hd (by rw [fixedLit_length]; omega)
      (by intro dl h; cases h; rw [fixedDist_length]; omega) _
  | dynamic lit dist alpha codes trees hdr extra hh hcl ha hp =>
    cases pushAll_eq hp
    obtain ⟨lt, dt, hr, hl, hd⟩ := readCodes_complete hh hcl ha extra
    obtain ⟨hlen, hdl⟩ := header_length hh
    rw [compressedBlock, ES.bind_ok (BitWriter.writeBitsVal_writerOf [] before (by omega)),
      ES.bind_ok (BitWriter.writeVec_writerOf [] _ _), readCodesOf_ok hr, ES.liftE_bind_ok]
    exact loop lt dt hl hd hlen (alpha_length ha hdl) _

/-- C27. Writing a block of codes, exactly: it succeeds if its trees have all codes and the end of block symbol;
it panics if only the end of block symbol is missing; otherwise the first code that is missing decides, and the
outcome is an error for a literal and for a distance in a block without distance codes, and a panic for a length
symbol or a distance symbol. -/
theorem C27_exact (b : Block) (lit : List Nat) (alpha : Option (List Nat)) (h : TreesOf b lit alpha)
    (before : List Bool) :
    ((∃ w, writeBlock before b = .ok () w) ↔
      (∀ c ∈ blockCodes b, CodeOk lit alpha c) ∧ codeOf lit 256 ≠ none) ∧
    (∀ e w, writeBlock before b = .error e w →
      ((∀ c ∈ blockCodes b, CodeOk lit alpha c) ∧ codeOf lit 256 = none ∧ e = .panic .unwrap) ∨
      ∃ cs₁ c cs₂, blockCodes b = cs₁ ++ c :: cs₂ ∧ (∀ c ∈ cs₁, CodeOk lit alpha c) ∧
        ¬ CodeOk lit alpha c ∧ Complaint lit alpha c e) := by
  rcases TreesOf.outcome h before with ⟨h1, h2, w, h3⟩ | ⟨h1, h2, w, h3⟩ | ⟨cs₁, c, cs₂, e, h1, h2, h3, h4, w, h5⟩
  · exact ⟨⟨fun _ => ⟨h1, h2⟩, fun _ => ⟨w, h3⟩⟩, fun e w' he => by rw [h3] at he; cases he⟩
  · refine ⟨⟨fun ⟨w', hw⟩ => (by rw [h3] at hw; cases hw), fun hk => absurd h2 hk.2⟩, fun e w' he => ?_⟩
    rw [h3] at he
    cases he
    exact .inl ⟨h1, h2, rfl⟩
  · refine ⟨⟨fun ⟨w', hw⟩ => (by rw [h5] at hw; cases hw),
      fun hk => absurd (hk.1 c (by rw [h1]; simp)) h3⟩, fun e' w' he => ?_⟩
    rw [h5] at he
    cases he
    exact .inr ⟨cs₁, c, cs₂, h1, h2, h3, h4⟩

theorem strict_unique {len i v j w : Nat} (h : StrictLengthSym len i v) (h' : StrictLengthSym len j w) :
    i = j :=
  (LengthSym.unique h.1 h'.1 fun e => by rw [h.2 e, h'.2 e]).1

/-- A code has at most one complaint, so that `C27_exact` determines the outcome. -/
theorem Complaint.unique {lit : List Nat} {alpha : Option (List Nat)} {c : Code} {e e' : Fail}
    (h : Complaint lit alpha c e) (h' : Complaint lit alpha c e') : e = e' := by
  cases h with
  | literal x hx => cases h' with | literal _ _ => rfl
  | length r i v hs hl =>
    cases h' with
    | length _ _ _ _ _ => rfl
    | distance _ _ _ _ _ _ _ _ _ _ => rfl
    | range _ i' v' hs' hl' _ => cases strict_unique hs hs'; exact absurd hl hl'
    | noTree _ i' v' hs' hl' _ _ _ => cases strict_unique hs hs'; exact absurd hl hl'
  | range r i v hs hl hr =>
    cases h' with
    | length _ i' v' hs' hl' => cases strict_unique hs hs'; exact absurd hl' hl
    | range _ _ _ _ _ _ => rfl
    | noTree _ _ _ _ _ _ _ _ => omega
    | distance _ _ _ j w _ _ _ hd _ _ => exact absurd (DistSym.range hd) (by omega)
  | noTree r i v hs hl h1 h2 ha =>
    cases h' with
    | length _ i' v' hs' hl' => cases strict_unique hs hs'; exact absurd hl' hl
    | range _ _ _ _ _ _ => omega
    | noTree _ _ _ _ _ _ _ _ => rfl
    | distance _ _ _ _ _ _ _ _ _ ha' _ => rw [ha] at ha'; cases ha'
  | distance r i v j w dl hs hl hd ha hn =>
    cases h' with
    | length _ _ _ _ _ => rfl
    | distance _ _ _ _ _ _ _ _ _ _ _ => rfl
    | range _ _ _ _ _ hr => exact absurd (DistSym.range hd) (by omega)
    | noTree _ _ _ _ _ _ _ ha' => rw [ha] at ha'; cases ha'

/-- A block with a good literal and a reference whose distance is 0: the complaint and the run. -/
example : TreesOf (.fixedHuffman [.literal 3, .reference ⟨0, 0⟩]) fixedLit (some fixedDist) := .fixed _

example : Complaint fixedLit (some fixedDist) (.reference ⟨0, 0⟩) (.panic .overflow) :=
  .range _ 0 0 (by unfold StrictLengthSym LengthSym Ref.run; decide +kernel) (by decide +kernel) (.inl rfl)

example : (match writeBlock [] (.fixedHuffman [.literal 3, .reference ⟨0, 0⟩]) with
    | .error (.panic .overflow) _ => true
    | _ => false) = true := by decide +kernel

end Rezip
