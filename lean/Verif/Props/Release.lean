import Verif.Model.Release
import Verif.Props.Complain

/-!
# C109: writing blocks in a release build
-/

namespace Rezip

open Spec Parse Huffman

namespace Release

/-! ### Distances -/

theorem loop_eq (d fuel e c b : Nat) (he : e + fuel < 256) (hc : c + 2 * fuel < 256) (hb : 0 < b) (hbd : b < d)
    (r : Nat × Nat × Nat) (h : Huffman.encodeDistanceLoop d fuel e c b = .ok r) (more : Nat) :
    encodeDistanceLoop d (fuel + more) e c b = .ok r ∧ r.2.1 < 255 ∧ b ≤ r.2.2 ∧ r.2.2 * 2 ≤ 65535 ∧ r.2.2 < d := by
  induction fuel generalizing e c b with
  | zero => cases h
  | succ fuel ih =>
    rw [Huffman.encodeDistanceLoop] at h
    split at h
    · cases h
    · rename_i h1
      rw [show fuel + 1 + more = (fuel + more) + 1 by omega, encodeDistanceLoop, Nat.mod_eq_of_lt (by omega)]
      split at h
      · rename_i h2
        rw [if_pos h2, Nat.mod_eq_of_lt (show e + 1 < 256 by omega), Nat.mod_eq_of_lt (show c + 2 < 256 by omega)]
        obtain ⟨k1, k2, k3, k4⟩ := ih (e + 1) (c + 2) (b * 2) (by omega) (by omega) (by omega) h2 h
        exact ⟨k1, k2, by omega, k4⟩
      · rename_i h2
        rw [if_neg h2]
        cases h
        exact ⟨rfl, by dsimp only; omega, Nat.le_refl _, by dsimp only; omega, hbd⟩

/-- In range nothing wraps. -/
theorem distanceSymbol_eq {d : Nat} (h1 : 1 ≤ d) (h2 : d ≤ 32768) (more : Nat) :
    distanceSymbol (16 + more) d = Huffman.encodeDistance d := by
  obtain ⟨i, v, _, he⟩ := encodeDistance_spec h1 h2
  rw [he]
  unfold Huffman.encodeDistance at he
  unfold distanceSymbol
  by_cases h4 : d ≤ 4
  · rw [if_pos h4, if_neg (by omega)] at he
    rw [if_pos h4, ← he]
    simp only [Except.ok.injEq, Prod.mk.injEq, and_true]
    omega
  · rw [if_neg h4] at he
    rw [if_neg h4]
    obtain ⟨⟨e, c, b⟩, hl, hr⟩ := Ex.bind_eq_ok.1 he
    obtain ⟨k1, k2, k3, k4, k5⟩ := loop_eq d 16 1 4 4 (by omega) (by omega) (by omega) (by omega) _ hl more
    dsimp only at k2 k3 k4 k5
    rw [k1, Ex.ok_bind]
    dsimp only at hr ⊢
    rw [if_neg (by omega), Nat.mod_eq_of_lt (show b + b / 2 < 65536 by omega), Nat.mod_eq_of_lt (show c + 1 < 256 by omega),
      show (d + 65536 - b + 65535) % 65536 = d - b - 1 by omega]
    exact hr

theorem loop_hangs {d : Nat} (h : 32768 < d) (fuel e c b : Nat)
    (hb : b ∈ [0, 4, 8, 16, 32, 64, 128, 256, 512, 1024, 2048, 4096, 8192, 16384, 32768]) :
    encodeDistanceLoop d fuel e c b = .error .diverge := by
  induction fuel generalizing e c b with
  | zero => rfl
  | succ fuel ih =>
    have hstep : ∀ b ∈ [0, 4, 8, 16, 32, 64, 128, 256, 512, 1024, 2048, 4096, 8192, 16384, 32768],
        b * 2 % 65536 ≤ 32768 ∧ b * 2 % 65536 ∈
          [0, 4, 8, 16, 32, 64, 128, 256, 512, 1024, 2048, 4096, 8192, 16384, 32768] := by decide
    obtain ⟨h1, h2⟩ := hstep b hb
    rw [encodeDistanceLoop, if_pos (by omega)]
    exact ih _ _ _ h2

theorem distanceSymbol_hangs {d : Nat} (h : 32768 < d) (fuel : Nat) : distanceSymbol fuel d = .error .diverge := by
  unfold distanceSymbol
  rw [if_neg (by omega), loop_hangs h fuel 1 4 4 (by simp)]
  rfl

/-! ### Runs without an overflow -/

/-- Where `x` does not overflow, `y` does the same. -/
def Agree {σ α : Type} (x y : EStateM Fail σ α) : Prop :=
  ∀ s, (∀ s', x s ≠ .error (.panic .overflow) s') → y s = x s

theorem Agree.refl {σ α : Type} (x : EStateM Fail σ α) : Agree x x := fun _ _ => rfl

theorem Agree.bind {σ α β : Type} {x y : EStateM Fail σ α} {f g : α → EStateM Fail σ β} (h : Agree x y)
    (hf : ∀ a, Agree (f a) (g a)) : Agree (x >>= f) (y >>= g) := by
  intro s hs
  cases hx : x s with
  | error e s' =>
    rw [ES.bind_err hx] at hs ⊢
    rw [ES.bind_err]
    rw [h s (by intro s'' he; rw [hx] at he; cases he; exact hs _ rfl), hx]
  | ok a s' =>
    rw [ES.bind_ok hx] at hs ⊢
    rw [ES.bind_ok (by rw [h s (by intro s'' he; rw [hx] at he; cases he), hx])]
    exact hf a s' hs

theorem agree_distance (more : Nat) (tree : Option (List (Option BitVector))) {d : Nat} (hd : d < 65536) :
    Agree (Serialise.encodeDistance tree d) (encodeDistance (16 + more) tree d) := by
  intro s hs
  by_cases h : d = 0 ∨ 32768 < d
  · exact absurd (Serialise.encodeDistance_range h hd tree s) (hs s)
  · unfold encodeDistance Serialise.encodeDistance
    rw [distanceSymbol_eq (by omega) (by omega)]
    cases tree <;> rfl

theorem agree_loop (more : Nat) (lt : List (Option BitVector)) (dt : Option (List (Option BitVector)))
    (codes : List Code) :
    Agree (Serialise.compressedCodesLoop lt dt codes) (compressedCodesLoop (16 + more) lt dt codes) := by
  induction codes with
  | nil => exact .refl _
  | cons c codes ih =>
    refine .bind ?_ fun _ => ih
    cases c with
    | literal b => exact .refl _
    | reference r => exact .bind (.refl _) fun _ => agree_distance more dt r.dist.toNat_lt

theorem agree_codes (more : Nat) (lt : CodeTree) (dt : Option CodeTree) (codes : List Code) :
    Agree (Serialise.compressedCodes lt dt codes) (compressedCodes (16 + more) lt dt codes) :=
  .bind (.refl _) fun _ => .bind (.refl _) fun _ => .bind (.refl _) fun _ =>
    .bind (agree_loop more _ _ codes) fun _ => .refl _

theorem agree_block (more : Nat) (b : Block) :
    Agree (Serialise.compressedBlock b) (compressedBlock (16 + more) b) := by
  cases b with
  | uncompressed data => exact .refl _
  | fixedHuffman codes =>
    exact .bind (.refl _) fun _ => .bind (.refl _) fun _ => .bind (.refl _) fun _ => agree_codes more _ _ codes
  | dynamicHuffman trees codes =>
    exact .bind (.refl _) fun _ => .bind (.refl _) fun _ => .bind (.refl _) fun _ => agree_codes more _ _ codes

/-! ### The first distance out of range -/

theorem codeOf_beyond {lens : List Nat} {i : Nat} (h : lens.length ≤ i) : codeOf lens i = none := by
  simp [codeOf, List.getD_eq_getElem?_getD, h]

theorem alphabet_short {dist : List Nat} {alpha : Option (List Nat)} (h : DistAlphabet dist alpha)
    (hd : dist.length ≤ 32) : ∀ dl, alpha = some dl → dl.length ≤ 32 := by
  intro dl hdl
  cases h with
  | unused => cases hdl
  | single a b h1 h2 =>
    cases hdl
    simp; omega
  | complete _ h1 h2 => cases hdl; exact hd

/-- What comes of a distance out of range. -/
def outOfRange (alpha : Option (List Nat)) (d : Nat) : Fail :=
  if 32768 < d then .diverge else match alpha with
    | none => .err .noDistanceTree
    | some _ => .panic .unwrap

theorem code_outOfRange (fuel : Nat) {lit : List Nat} {alpha : Option (List Nat)} {r : Ref} {i v : Nat}
    (hs : StrictLengthSym r.run i v) (hl : codeOf lit (257 + i) ≠ none)
    (ha : ∀ dl, alpha = some dl → dl.length ≤ 32) (hr : r.dist.toNat = 0 ∨ 32768 < r.dist.toNat)
    (pre : List UInt8) (acc : List Bool) :
    ∃ w, compressedCode fuel (Serialise.table lit) (alpha.map Serialise.table) (.reference r)
      (BitWriter.writerOf pre acc) = .error (outOfRange alpha r.dist.toNat) w := by
  simp only [compressedCode]
  cases hlc : codeOf lit (257 + i) with
  | none => exact absurd hlc hl
  | some lc =>
    rw [ES.bind_ok (Serialise.encodeRun_ok hs hlc pre acc)]
    unfold encodeDistance outOfRange
    by_cases hfar : 32768 < r.dist.toNat
    · rw [distanceSymbol_hangs hfar, ES.liftE_bind_error, if_pos hfar]
      exact ⟨_, rfl⟩
    · rw [show r.dist.toNat = 0 by omega, show distanceSymbol fuel 0 = .ok (255, 0, 0) from rfl, ES.liftE_bind_ok,
        if_neg (by omega)]
      cases alpha with
      | none => exact ⟨_, rfl⟩
      | some dl =>
        have := ha dl rfl
        dsimp only [Option.map_some]
        rw [Serialise.lookup_table_none (by omega) (codeOf_beyond (by omega)), ES.liftE_bind_error]
        exact ⟨_, rfl⟩

theorem loop_stops (fuel : Nat) {lt : List (Option BitVector)} {dt : Option (List (Option BitVector))}
    (cs₁ : List Code) {c : Code} (cs₂ : List Code) {w w₁ w₂ : BitWriter} {e : Fail}
    (h1 : compressedCodesLoop fuel lt dt cs₁ w = .ok () w₁) (h2 : compressedCode fuel lt dt c w₁ = .error e w₂) :
    compressedCodesLoop fuel lt dt (cs₁ ++ c :: cs₂) w = .error e w₂ := by
  induction cs₁ generalizing w with
  | nil =>
    cases h1
    rw [List.nil_append, compressedCodesLoop, ES.bind_err h2]
  | cons d cs ih =>
    rw [compressedCodesLoop] at h1
    rw [List.cons_append, compressedCodesLoop]
    cases hd : compressedCode fuel lt dt d w with
    | error e s => rw [ES.bind_err hd] at h1; cases h1
    | ok a s => rw [ES.bind_ok hd] at h1 ⊢; exact ih h1

theorem codes_stop (more : Nat) {lit : List Nat} {alpha : Option (List Nat)} {lt : CodeTree} {dt : Option CodeTree}
    (hl : CodeTree.IsTree lit lt) (hd : IsOptTree alpha dt) (hlen : lit.length ≤ 288)
    (hdlen : ∀ dl, alpha = some dl → dl.length ≤ 32) {cs₁ cs₂ : List Code} {r : Ref} {i v : Nat}
    (hok : ∀ c ∈ cs₁, CodeOk lit alpha c) (hs : StrictLengthSym r.run i v) (hc : codeOf lit (257 + i) ≠ none)
    (hr : r.dist.toNat = 0 ∨ 32768 < r.dist.toNat) (acc : List Bool) :
    ∃ w, compressedCodes (16 + more) lt dt (cs₁ ++ .reference r :: cs₂) (BitWriter.writerOf [] acc) =
      .error (outOfRange alpha r.dist.toNat) w := by
  unfold compressedCodes
  rw [Serialise.invert_table hl hlen, ES.liftE_bind_ok,
    Serialise.invertOption_table hd (fun dl h => by have := hdlen dl h; omega), ES.liftE_bind_ok,
    assert_of (by simp [Serialise.table_length]), ES.liftE_bind_ok]
  rcases Serialise.compressedCodesLoop_cases (lit := lit) (alpha := alpha) cs₁ [] acc with
    ⟨_, bs, _, hw⟩ | ⟨c1, c, c2, _, _, _, h2, _, g2, _⟩
  · have hw' := agree_loop more _ _ cs₁ (BitWriter.writerOf [] acc) (by rw [hw]; intro s h; cases h)
    rw [hw] at hw'
    obtain ⟨w, hwr⟩ := code_outOfRange (16 + more) hs hc hdlen hr [] (acc ++ bs)
    exact ⟨_, ES.bind_err (loop_stops _ cs₁ cs₂ hw' hwr)⟩
  · exact absurd (hok c (by rw [h2]; simp)) g2

end Release

/-- Some bits, then a block, written to an empty vector in a release build. -/
def releaseBlock (fuel : Nat) (before : List Bool) (b : Block) : EStateM.Result Fail BitWriter Unit :=
  (do BitWriter.writeBits before; Release.compressedBlock fuel b : EStateM Fail BitWriter Unit)
    (BitWriter.new Sink.vec)

theorem releaseBlock_eq (fuel : Nat) (before : List Bool) (b : Block) :
    releaseBlock fuel before b = Release.compressedBlock fuel b (BitWriter.writerOf [] before) := by
  unfold releaseBlock
  rw [show BitWriter.new Sink.vec = BitWriter.writerOf [] [] from BitWriter.new_eq [],
    ES.bind_ok (BitWriter.writeBits_writerOf [] [] before), List.nil_append]

/-- The outcome for the first code with a distance out of range. -/
theorem TreesOf.release {b : Block} {lit : List Nat} {alpha : Option (List Nat)} (h : TreesOf b lit alpha)
    (before : List Bool) (more : Nat) {cs₁ cs₂ : List Code} {r : Ref} {i v : Nat}
    (hb : blockCodes b = cs₁ ++ .reference r :: cs₂) (hok : ∀ c ∈ cs₁, CodeOk lit alpha c)
    (hs : StrictLengthSym r.run i v) (hc : codeOf lit (257 + i) ≠ none)
    (hr : r.dist.toNat = 0 ∨ 32768 < r.dist.toNat) :
    ∃ w, releaseBlock (16 + more) before b = .error (Release.outOfRange alpha r.dist.toNat) w := by
  rw [releaseBlock_eq]
  cases h with
  | fixed codes =>
    obtain ⟨lt, hlt, hl⟩ := fixedLengthTree_ok
    obtain ⟨dt, hdt, hd⟩ := fixedDistanceTree_ok
    cases hb
    rw [Release.compressedBlock, ES.bind_ok (BitWriter.writeBitsVal_writerOf [] before (by omega)), hlt,
      ES.liftE_bind_ok, hdt, ES.liftE_bind_ok]
    exact Release.codes_stop (alpha := some fixedDist) (dt := some dt) more hl hd (by rw [Serialise.fixedLit_length]; omega)
      (by intro dl h; cases h; rw [Serialise.fixedDist_length]; omega) hok hs hc hr _
  | dynamic lit dist alpha codes trees hdr extra hh hcl ha hp =>
    cases Serialise.pushAll_eq hp
    obtain ⟨lt, dt, hrc, hl, hd⟩ := readCodes_complete hh hcl ha extra
    obtain ⟨hlen, hdl⟩ := Serialise.header_length hh
    cases hb
    rw [Release.compressedBlock, ES.bind_ok (BitWriter.writeBitsVal_writerOf [] before (by omega)),
      ES.bind_ok (BitWriter.writeVec_writerOf [] _ _), Serialise.readCodesOf_ok hrc, ES.liftE_bind_ok]
    exact Release.codes_stop more hl hd hlen (Release.alphabet_short ha hdl) hok hs hc hr _

theorem first_unique {p : Code → Prop} {a₁ a₂ b₁ b₂ : List Code} {c d : Code} (h : a₁ ++ c :: a₂ = b₁ ++ d :: b₂)
    (ha : ∀ x ∈ a₁, p x) (hb : ∀ x ∈ b₁, p x) (hc : ¬ p c) (hd : ¬ p d) : c = d := by
  induction a₁ generalizing b₁ with
  | nil =>
    cases b₁ with
    | nil => simp only [List.nil_append, List.cons.injEq] at h; exact h.1
    | cons x b₁ =>
      simp only [List.nil_append, List.cons_append, List.cons.injEq] at h
      exact absurd (h.1 ▸ hb x (by simp)) hc
  | cons x a₁ ih =>
    cases b₁ with
    | nil =>
      simp only [List.nil_append, List.cons_append, List.cons.injEq] at h
      exact absurd (h.1 ▸ ha x (by simp)) hd
    | cons y b₁ =>
      simp only [List.cons_append, List.cons.injEq] at h
      exact ih h.2 (fun x hx => ha x (by simp [hx])) (fun x hx => hb x (by simp [hx]))

theorem TreesOf.debug {b : Block} {lit : List Nat} {alpha : Option (List Nat)} (h : TreesOf b lit alpha)
    (before : List Bool) {cs₁ cs₂ : List Code} {r : Ref} {i v : Nat}
    (hb : blockCodes b = cs₁ ++ .reference r :: cs₂) (hok : ∀ c ∈ cs₁, CodeOk lit alpha c)
    (hs : StrictLengthSym r.run i v) (hc : codeOf lit (257 + i) ≠ none)
    (hr : r.dist.toNat = 0 ∨ 32768 < r.dist.toNat) :
    ∃ w, writeBlock before b = .error (.panic .overflow) w := by
  have hn : ¬ CodeOk lit alpha (.reference r) := by
    rintro ⟨bs, hbs⟩
    cases hbs with
    | reference _ i' v' j w dl lc dc ha hls' hlc' hds hdc => exact absurd (DistSym.range hds) (by omega)
  have hm : Code.reference r ∈ blockCodes b := by rw [hb]; simp
  rcases TreesOf.outcome h before with ⟨h1, _⟩ | ⟨h1, _⟩ | ⟨c₁, c, c₂, e, h1, h2, h3, h4, w, h5⟩
  · exact absurd (h1 _ hm) hn
  · exact absurd (h1 _ hm) hn
  · cases first_unique (hb.symm.trans h1) hok h2 hn h3
    rw [Complaint.unique h4 (.range r i v hs hc hr)] at h5
    exact ⟨w, h5⟩

/-- C109. A release build writes a block as a debug build does, with the same bytes and the same errors and panics,
as long as the debug build does not panic for an overflow. Sixteen iterations of the loop are enough. -/
theorem C109_same (b : Block) (w : BitWriter) (fuel : Nat) (hf : 16 ≤ fuel)
    (h : ∀ w', Serialise.compressedBlock b w ≠ .error (.panic .overflow) w') :
    Release.compressedBlock fuel b w = Serialise.compressedBlock b w := by
  obtain ⟨more, rfl⟩ := Nat.exists_eq_add_of_le hf
  exact Release.agree_block more b w h

/-- C109. A reference further than 32768 that follows good codes: a debug build panics, a release build never
stops. -/
theorem C109_far (b : Block) (lit : List Nat) (alpha : Option (List Nat)) (h : TreesOf b lit alpha)
    (before : List Bool) (cs₁ cs₂ : List Code) (r : Ref) (i v : Nat)
    (hb : blockCodes b = cs₁ ++ .reference r :: cs₂) (hok : ∀ c ∈ cs₁, CodeOk lit alpha c)
    (hs : StrictLengthSym r.run i v) (hc : codeOf lit (257 + i) ≠ none) (hr : 32768 < r.dist.toNat) :
    (∃ w, writeBlock before b = .error (.panic .overflow) w) ∧
      ∀ fuel, 16 ≤ fuel → ∃ w, releaseBlock fuel before b = .error .diverge w := by
  refine ⟨TreesOf.debug h before hb hok hs hc (.inr hr), fun fuel hf => ?_⟩
  obtain ⟨more, rfl⟩ := Nat.exists_eq_add_of_le hf
  have := TreesOf.release h before more hb hok hs hc (.inr hr)
  rwa [Release.outOfRange.eq_def, if_pos hr] at this

/-- C109. A reference at distance zero: a debug build panics, a release build looks for distance symbol 255. -/
theorem C109_zero (b : Block) (lit : List Nat) (alpha : Option (List Nat)) (h : TreesOf b lit alpha)
    (before : List Bool) (cs₁ cs₂ : List Code) (r : Ref) (i v : Nat)
    (hb : blockCodes b = cs₁ ++ .reference r :: cs₂) (hok : ∀ c ∈ cs₁, CodeOk lit alpha c)
    (hs : StrictLengthSym r.run i v) (hc : codeOf lit (257 + i) ≠ none) (hr : r.dist.toNat = 0) :
    (∃ w, writeBlock before b = .error (.panic .overflow) w) ∧
      ∀ fuel, 16 ≤ fuel → ∃ w, releaseBlock fuel before b =
        .error (if alpha = none then .err .noDistanceTree else .panic .unwrap) w := by
  refine ⟨TreesOf.debug h before hb hok hs hc (.inl hr), fun fuel hf => ?_⟩
  obtain ⟨more, rfl⟩ := Nat.exists_eq_add_of_le hf
  have := TreesOf.release h before more hb hok hs hc (.inl hr)
  rw [Release.outOfRange.eq_def, if_neg (by omega)] at this
  cases alpha <;> simpa using this

/-- A block that both builds write, to the same bytes: `abc`, then a reference to the first of them. -/
example : Release.compressedBlock 16 (.fixedHuffman [.literal 97, .literal 98, .literal 99, .reference ⟨3, 0⟩])
      (BitWriter.new Sink.vec) =
    Serialise.compressedBlock (.fixedHuffman [.literal 97, .literal 98, .literal 99, .reference ⟨3, 0⟩])
      (BitWriter.new Sink.vec) :=
  C109_same _ _ 16 (Nat.le_refl _) (by
    intro w' h
    have : (match Serialise.compressedBlock (.fixedHuffman [.literal 97, .literal 98, .literal 99, .reference ⟨3, 0⟩])
        (BitWriter.new Sink.vec) with
      | .ok _ _ => true
      | .error _ _ => false) = true := by decide +kernel
    rw [h] at this
    cases this)

/-- A literal, then three bytes from 40000 bytes ago. -/
example : ∀ fuel, 16 ≤ fuel → ∃ w,
    releaseBlock fuel [] (.fixedHuffman [.literal 97, .reference ⟨40000, 0⟩]) = .error .diverge w :=
  (C109_far _ _ _ (.fixed _) [] [.literal 97] [] ⟨40000, 0⟩ 0 0 rfl
    (by
      intro c hc
      simp only [List.mem_singleton] at hc
      subst hc
      exact ⟨_, .literal 97 [true, false, false, true, false, false, false, true] (by decide +kernel)⟩)
    (by unfold StrictLengthSym LengthSym Ref.run; decide +kernel) (by decide +kernel) (by decide)).2

/-- Three bytes from zero bytes ago. -/
example : ∀ fuel, 16 ≤ fuel → ∃ w,
    releaseBlock fuel [true] (.fixedHuffman [.reference ⟨0, 0⟩]) = .error (.panic .unwrap) w :=
  (C109_zero _ _ _ (.fixed _) [true] [] [] ⟨0, 0⟩ 0 0 rfl (by simp)
    (by unfold StrictLengthSym LengthSym Ref.run; decide +kernel) (by decide +kernel) (by decide)).2

end Rezip
