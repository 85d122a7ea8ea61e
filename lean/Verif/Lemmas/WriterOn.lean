import Verif.Model.Writer
import Verif.Lemmas.Reader

/-!
# A writer of any kind takes what a sink takes
-/

namespace Rezip

open Parse

/-- The error in place of that of the sink. -/
def relabelW (e : Fail) (x : Fail) : Fail := if x = .err .sink then e else x

theorem relabelW_ne {e x : Fail} (h : x ≠ .err .sink) : relabelW e x = x := by simp [relabelW, h]

theorem relabelW_sink {e : Fail} : relabelW e (.err .sink) = e := by simp [relabelW]

/-- `S w s`: the writer in state `w` has taken what the sink `s` has taken, and will take as much as it has room
for and then fail with `e`; `T w s`: it has taken the same. -/
structure Takes {ω : Type} (W : Writer ω) (S T : ω → Sink → Prop) (e : Fail) : Prop where
  weaken : ∀ {w s}, S w s → T w s
  ok : ∀ {w s s' buf}, S w s → writeAll buf s = .ok () s' → ∃ w', W.writeAll buf w = .ok () w' ∧ S w' s'
  error : ∀ {w s s' x buf}, S w s → writeAll buf s = .error x s' → ∃ w', W.writeAll buf w = .error e w' ∧ T w' s'

/-! ### Simulation -/

/-- `g` does from `w` what `o` does from `s`, with the error `e` where the sink of `o` is full. -/
def SimAt {σ₁ σ₂ α : Type} (e : Fail) (S T : σ₁ → σ₂ → Prop) (g : EStateM Fail σ₁ α) (o : EStateM Fail σ₂ α)
    (w : σ₁) (s : σ₂) : Prop :=
  match o s with
  | .ok a s' => ∃ w', g w = .ok a w' ∧ S w' s'
  | .error x s' => ∃ w', g w = .error (relabelW e x) w' ∧ T w' s'

/-- The same from all related states. -/
def SimW {σ₁ σ₂ α : Type} (e : Fail) (S T : σ₁ → σ₂ → Prop) (g : EStateM Fail σ₁ α) (o : EStateM Fail σ₂ α) : Prop :=
  ∀ w s, S w s → SimAt e S T g o w s

section

variable {σ₁ σ₂ α β : Type} {e : Fail} {S T : σ₁ → σ₂ → Prop}

theorem SimAt.bind {g : EStateM Fail σ₁ α} {o : EStateM Fail σ₂ α} {g' : α → EStateM Fail σ₁ β}
    {o' : α → EStateM Fail σ₂ β} {w : σ₁} {s : σ₂} (h : SimAt e S T g o w s) (h' : ∀ a, SimW e S T (g' a) (o' a)) :
    SimAt e S T (g >>= g') (o >>= o') w s := by
  unfold SimAt at h ⊢
  cases ho : o s with
  | error x s' =>
    rw [ho] at h
    obtain ⟨w', h1, h2⟩ := h
    rw [ES.bind_err ho]
    exact ⟨w', ES.bind_err h1, h2⟩
  | ok a s' =>
    rw [ho] at h
    obtain ⟨w', h1, h2⟩ := h
    rw [ES.bind_ok ho, ES.bind_ok h1]
    exact h' a w' s' h2

theorem SimW.bind {g : EStateM Fail σ₁ α} {o : EStateM Fail σ₂ α} {g' : α → EStateM Fail σ₁ β}
    {o' : α → EStateM Fail σ₂ β} (h : SimW e S T g o) (h' : ∀ a, SimW e S T (g' a) (o' a)) :
    SimW e S T (g >>= g') (o >>= o') := fun w s hs => (h w s hs).bind h'

theorem SimAt.pure {w : σ₁} {s : σ₂} (hs : S w s) (a : α) : SimAt e S T (Pure.pure a) (Pure.pure a) w s := ⟨w, rfl, hs⟩

theorem SimW.pure (a : α) : SimW e S T (Pure.pure a) (Pure.pure a) := fun _ _ hs => .pure hs a

theorem SimAt.liftE_bind {x : Except Fail α} {g : α → EStateM Fail σ₁ β} {o : α → EStateM Fail σ₂ β} {w : σ₁} {s : σ₂}
    (ht : T w s) (hx : ∀ f, x = .error f → f ≠ .err .sink) (h : ∀ a, x = .ok a → SimAt e S T (g a) (o a) w s) :
    SimAt e S T (Rezip.liftE x >>= g) (Rezip.liftE x >>= o) w s := by
  cases x with
  | ok a => exact h a rfl
  | error f => exact ⟨w, by rw [relabelW_ne (hx f rfl)]; rfl, ht⟩

theorem SimAt.liftE {x : Except Fail α} {w : σ₁} {s : σ₂} (hs : S w s) (ht : T w s)
    (hx : ∀ f, x = .error f → f ≠ .err .sink) : SimAt e S T (Rezip.liftE x) (Rezip.liftE x) w s := by
  cases x with
  | ok a => exact ⟨w, rfl, hs⟩
  | error f => exact ⟨w, by rw [relabelW_ne (hx f rfl)]; rfl, ht⟩

theorem SimW.liftE (hst : ∀ {w s}, S w s → T w s) {x : Except Fail α} (hx : Own x) :
    SimW e S T (Rezip.liftE x) (Rezip.liftE x) :=
  fun _ _ hs => .liftE hs (hst hs) fun f hf => Fail.ne_sink (hx f hf)

theorem SimW.get_bind {g : σ₁ → EStateM Fail σ₁ β} {o : σ₂ → EStateM Fail σ₂ β}
    (h : ∀ w s, S w s → SimAt e S T (g w) (o s) w s) : SimW e S T (get >>= g) (get >>= o) := fun w s hs => h w s hs

theorem SimAt.set_bind {g : PUnit → EStateM Fail σ₁ β} {o : PUnit → EStateM Fail σ₂ β} {w w' : σ₁} {s s' : σ₂}
    (h : SimAt e S T (g ⟨⟩) (o ⟨⟩) w' s') : SimAt e S T (set w' >>= g) (set s' >>= o) w s := h

end

/-! ### bit.rs -/

/-- The same bits are waiting, and the writers are related. -/
def OnBitW {ω : Type} (S : ω → Sink → Prop) (w : BitWriterOn ω) (s : BitWriter) : Prop :=
  S w.inner s.inner ∧ w.current = s.current

/-- The relation after a failure. -/
abbrev OnBitT {ω : Type} (T : ω → Sink → Prop) (w : BitWriterOn ω) (s : BitWriter) : Prop := T w.inner s.inner

theorem own_push' (v : BitVector) (b : Bool) : Own (v.push b) := by
  unfold BitVector.push
  dsimp only
  have hjp : ∀ bytes : List UInt8, Own (if b = true then do
      let w ← index bytes (v.len / 8)
      let bytes ← indexSet bytes (v.len / 8) (w ||| 1 <<< (v.len % 8).toUInt8)
      pure { bytes := bytes, len := v.len + 1 }
    else pure ({ bytes := bytes, len := v.len + 1 } : BitVector)) := by
    intro bytes
    split
    · exact (own_index _ _).bind fun _ => (own_indexSet _ _ _).bind fun _ => own_pure _
    · exact own_pure _
  split
  · exact (own_assert _).bind fun _ => (own_pure _).bind fun _ => hjp _
  · exact (own_pure _).bind fun _ => hjp _

theorem own_get (v : BitVector) (i : Nat) : Own (v.get i) :=
  (own_assert _).bind fun _ => (own_index _ _).bind fun _ => own_pure _

theorem own_popByte (v : BitVector) : Own v.popByte := by
  have hpop : ∀ v : BitVector, Own v.pop := by
    intro v
    unfold BitVector.pop
    split
    · exact own_pure _
    · exact (own_get _ _).bind fun _ => own_pure _
  have hloop : ∀ n ret v, Own (BitVector.popByteLoop n ret v) := by
    intro n
    induction n with
    | zero => intro ret v; exact own_pure _
    | succ n ih =>
      intro ret v
      refine (hpop v).bind fun p => ?_
      match p with
      | (none, _) => exact own_error rfl
      | (some b, v) => exact ih _ _
  unfold BitVector.popByte
  split
  · exact own_pure _
  · exact (hloop _ _ _).bind fun _ => own_pure _

theorem own_isEmpty (v : BitVector) : Own v.isEmpty := (own_assert _).bind fun _ => own_pure _

section

variable {ω : Type} {W : Writer ω} {S T : ω → Sink → Prop} {e : Fail}

theorem simW_writeInner (h : Takes W S T e) (buf : List UInt8) :
    SimW e (OnBitW S) (OnBitT T) (BitWriterOn.writeInner W buf) (BitWriter.writeInner buf) := by
  rintro w s ⟨h1, h2⟩
  unfold SimAt BitWriterOn.writeInner BitWriter.writeInner
  cases hx : writeAll buf s.inner with
  | ok u s' =>
    obtain ⟨w', h3, h4⟩ := h.ok h1 hx
    rw [h3]
    exact ⟨_, rfl, h4, h2⟩
  | error x s' =>
    obtain ⟨w', h3, h4⟩ := h.error h1 hx
    rw [h3]
    refine ⟨{ w with inner := w' }, ?_, h4⟩
    have : x = .err .sink := by
      unfold writeAll at hx
      split at hx
      · cases hx
      · split at hx
        · cases hx
        · cases hx; rfl
    rw [this, relabelW_sink]

theorem simW_writeBit (h : Takes W S T e) (b : Bool) :
    SimW e (OnBitW S) (OnBitT T) (BitWriterOn.writeBit W b) (BitWriter.writeBit b) := by
  refine SimW.get_bind fun w s hs => ?_
  rw [hs.2]
  refine SimAt.liftE_bind (h.weaken hs.1) (fun f hf => Fail.ne_sink (own_push' _ _ f hf)) fun cur _ => ?_
  refine SimAt.set_bind ?_
  split
  · refine SimAt.liftE_bind (h.weaken hs.1) (fun f hf => Fail.ne_sink (own_assert _ f hf)) fun _ _ => ?_
    refine SimAt.liftE_bind (h.weaken hs.1) (fun f hf => Fail.ne_sink (own_popByte _ f hf)) fun p _ => ?_
    match p with
    | (none, _) => exact SimAt.liftE ⟨hs.1, rfl⟩ (h.weaken hs.1) (fun f hf => by cases hf; simp)
    | (some byte, c) => exact SimAt.set_bind (simW_writeInner h [byte] _ _ ⟨hs.1, rfl⟩)
  · exact SimAt.pure ⟨hs.1, rfl⟩ _

theorem simW_writeBits (h : Takes W S T e) (bs : List Bool) :
    SimW e (OnBitW S) (OnBitT T) (BitWriterOn.writeBits W bs) (BitWriter.writeBits bs) := by
  induction bs with
  | nil => exact .pure _
  | cons b bs ih => exact (simW_writeBit h b).bind fun _ => ih

theorem simW_liftE (h : Takes W S T e) {α : Type} {x : Except Fail α} (hx : Own x) :
    SimW e (OnBitW S) (OnBitT T) (liftE x) (liftE x) := .liftE (fun hs => h.weaken hs.1) hx

theorem simW_writeVec (h : Takes W S T e) (v : BitVector) :
    SimW e (OnBitW S) (OnBitT T) (BitWriterOn.writeVec W v) (BitWriter.writeVec v) :=
  (simW_liftE h (own_toBits v)).bind fun _ => simW_writeBits h _

theorem simW_writeBitsVal (h : Takes W S T e) (bits val : Nat) :
    SimW e (OnBitW S) (OnBitT T) (BitWriterOn.writeBitsVal W bits val) (BitWriter.writeBitsVal bits val) := by
  have : ∀ n i, SimW e (OnBitW S) (OnBitT T) (BitWriterOn.writeBitsValLoop W val i n) (BitWriter.writeBitsValLoop val i n) := by
    intro n
    induction n with
    | zero => intro i; exact .pure _
    | succ n ih =>
      intro i
      rw [BitWriterOn.writeBitsValLoop, BitWriter.writeBitsValLoop]
      split
      · exact simW_liftE h (own_error rfl)
      · exact (simW_writeBit h _).bind fun _ => ih _
  exact this _ _

theorem simW_align (h : Takes W S T e) :
    SimW e (OnBitW S) (OnBitT T) (BitWriterOn.align W) BitWriter.align := by
  have : ∀ fuel, SimW e (OnBitW S) (OnBitT T) (BitWriterOn.alignLoop W fuel) (BitWriter.alignLoop fuel) := by
    intro fuel
    induction fuel with
    | zero => exact fun w s hs => ⟨w, by rw [relabelW_ne (by simp)]; rfl, h.weaken hs.1⟩
    | succ fuel ih =>
      refine SimW.get_bind fun w s hs => ?_
      rw [hs.2]
      refine SimAt.liftE_bind (h.weaken hs.1) (fun f hf => Fail.ne_sink (own_isEmpty _ f hf)) fun b _ => ?_
      split
      · exact (simW_writeBit h false w s hs).bind fun _ => ih
      · exact .pure hs _
  exact this _

theorem simW_writeLengthPrefixed (h : Takes W S T e) (data : List UInt8) :
    SimW e (OnBitW S) (OnBitT T) (BitWriterOn.writeLengthPrefixed W data) (BitWriter.writeLengthPrefixed data) :=
  (simW_align h).bind fun _ => (simW_liftE h (own_ensure rfl)).bind fun _ => (simW_writeInner h _).bind fun _ =>
    (simW_writeInner h _).bind fun _ => simW_writeInner h _

/-! ### serialise.rs, compressing -/

theorem own_lookup (table : List (Option BitVector)) (i : Nat) : Own (Serialise.lookupUnwrap table i) := by
  refine (own_index _ _).bind fun o => ?_
  cases o with
  | none => exact own_error rfl
  | some v => exact own_pure _

theorem own_storeCode (n : Node) : ∀ into pre, Own (CodeTree.storeCode into pre n) := by
  induction n with
  | leaf sym =>
    intro into pre
    exact (own_index _ _).bind fun _ => (own_assert _).bind fun _ => own_indexSet _ _ _
  | internal l r hl hr =>
    intro into pre
    exact (own_push' _ _).bind fun _ => (hl _ _).bind fun _ => (own_push' _ _).bind fun _ => hr _ _

theorem own_invert (t : CodeTree) : Own t.invert :=
  (own_push' _ _).bind fun _ => (own_storeCode _ _ _).bind fun _ => (own_push' _ _).bind fun _ => own_storeCode _ _ _

theorem own_invertOption (t : Option CodeTree) : Own (Serialise.invertOption t) := by
  cases t with
  | none => exact own_pure _
  | some t => exact (own_invert t).bind fun _ => own_pure _

theorem own_encodeRunLength (n : Nat) : Own (Huffman.encodeRunLength n) := by
  unfold Huffman.encodeRunLength
  repeat' split
  all_goals first | exact own_ok _ | exact own_error rfl

theorem own_extraRunLength (n : Nat) : Own (Huffman.extraRunLength n) := by
  unfold Huffman.extraRunLength
  repeat' split
  all_goals first | exact own_ok _ | exact own_error rfl

theorem own_encodeDistance (n : Nat) : Own (Huffman.encodeDistance n) := by
  have hloop : ∀ fuel a b c, Own (Huffman.encodeDistanceLoop n fuel a b c) := by
    intro fuel
    induction fuel with
    | zero => intro a b c; exact own_error rfl
    | succ fuel ih =>
      intro a b c
      unfold Huffman.encodeDistanceLoop
      split
      · exact own_error rfl
      · split
        · exact ih _ _ _
        · exact own_ok _
  unfold Huffman.encodeDistance
  split
  · split
    · exact own_error rfl
    · exact own_ok _
  · refine (hloop _ _ _ _).bind fun p => ?_
    obtain ⟨a, b, c⟩ := p
    dsimp only
    split <;> exact own_ok _

theorem own_readCodesOf (v : BitVector) : Own (Serialise.readCodesOf v) := by
  have hrun : ∀ {α : Type} (p : BitProg α), p.Own → ∀ (it it' : StackIterator) f,
      p.runIter it = .error f it' → f.ours = true := by
    intro α p
    induction p with
    | done a => intro _ it it' f hf; cases hf
    | fail x => intro hp it it' f hf; cases hf; exact hp
    | bit k ih =>
      intro hp it it' f hf
      rw [BitProg.runIter] at hf
      dsimp only at hf
      have hn : ∀ x it2, StackIterator.next it = .error x it2 → x.ours = true := by
        intro x it2 hx
        unfold StackIterator.next at hx
        split at hx
        · split at hx
          · cases hx
          · cases hx; rfl
        · cases hg : it.inner.get it.pos with
          | ok b => rw [hg] at hx; cases hx
          | error y => rw [hg] at hx; cases hx; exact own_get _ _ _ hg
      cases hx : StackIterator.next it with
      | error x it2 => rw [hx] at hf; cases hf; exact hn _ _ hx
      | ok o it2 =>
        rw [hx] at hf
        cases o with
        | none => cases hf; rfl
        | some b => exact ih b (hp b) _ _ _ hf
  intro f hf
  unfold Serialise.readCodesOf at hf
  cases hx : BitProg.runIter Huffman.readCodes v.iter with
  | ok a it => rw [hx] at hf; cases hf
  | error x it => rw [hx] at hf; cases hf; exact hrun _ own_readCodes _ _ _ hx

theorem simW_encodeRun (h : Takes W S T e) (t : List (Option BitVector)) (run : Nat) :
    SimW e (OnBitW S) (OnBitT T) (Serialise.encodeRunOn W t run) (Serialise.encodeRun t run) := by
  refine (simW_liftE h (own_encodeRunLength _)).bind fun _ => (simW_liftE h (own_lookup _ _)).bind fun _ => ?_
  refine (simW_writeVec h _).bind fun _ => (simW_liftE h (own_extraRunLength _)).bind fun o => ?_
  match o with
  | none => exact .pure _
  | some (bits, val) => exact simW_writeBitsVal h _ _

theorem simW_encodeDistance (h : Takes W S T e) (t : Option (List (Option BitVector))) (dist : Nat) :
    SimW e (OnBitW S) (OnBitT T) (Serialise.encodeDistanceOn W t dist) (Serialise.encodeDistance t dist) := by
  refine (simW_liftE h (own_encodeDistance _)).bind fun p => ?_
  obtain ⟨code, bits, val⟩ := p
  cases t with
  | none => exact simW_liftE h (own_error rfl)
  | some t =>
    refine (simW_liftE h (own_lookup _ _)).bind fun _ => (simW_writeVec h _).bind fun _ => ?_
    split
    · exact simW_writeBitsVal h _ _
    · exact .pure _

theorem simW_compressedCodes (h : Takes W S T e) (l : CodeTree) (d : Option CodeTree) (cs : List Code) :
    SimW e (OnBitW S) (OnBitT T) (Serialise.compressedCodesOn W l d cs) (Serialise.compressedCodes l d cs) := by
  have hcode : ∀ lt dt c, SimW e (OnBitW S) (OnBitT T) (Serialise.compressedCodeOn W lt dt c) (Serialise.compressedCode lt dt c) := by
    intro lt dt c
    cases c with
    | literal b =>
      refine (simW_liftE h (own_index _ _)).bind fun o => ?_
      cases o with
      | none => exact simW_liftE h (own_error rfl)
      | some v => exact simW_writeVec h v
    | reference r => exact (simW_encodeRun h _ _).bind fun _ => simW_encodeDistance h _ _
  have hloop : ∀ lt dt, SimW e (OnBitW S) (OnBitT T) (Serialise.compressedCodesLoopOn W lt dt cs)
      (Serialise.compressedCodesLoop lt dt cs) := by
    intro lt dt
    induction cs with
    | nil => exact .pure _
    | cons c cs ih => exact (hcode lt dt c).bind fun _ => ih
  exact (simW_liftE h (own_invert _)).bind fun _ => (simW_liftE h (own_invertOption _)).bind fun _ =>
    (simW_liftE h (own_assert _)).bind fun _ => (hloop _ _).bind fun _ => (simW_liftE h (own_lookup _ _)).bind fun _ =>
    simW_writeVec h _

theorem simW_compressedBlock (h : Takes W S T e) (b : Block) :
    SimW e (OnBitW S) (OnBitT T) (Serialise.compressedBlockOn W b) (Serialise.compressedBlock b) := by
  cases b with
  | uncompressed data => exact (simW_writeBitsVal h _ _).bind fun _ => simW_writeLengthPrefixed h _
  | fixedHuffman cs =>
    rw [Serialise.compressedBlockOn, Serialise.compressedBlock]
    have hf := own_fixed
    generalize Huffman.fixedLengthTree = ft at hf ⊢
    generalize Huffman.fixedDistanceTree = dt at hf ⊢
    exact (simW_writeBitsVal h _ _).bind fun _ => (simW_liftE h hf.1).bind fun _ => (simW_liftE h hf.2).bind fun _ =>
      simW_compressedCodes h _ _ _
  | dynamicHuffman t cs =>
    refine (simW_writeBitsVal h _ _).bind fun _ => (simW_writeVec h _).bind fun _ =>
      (simW_liftE h (own_readCodesOf _)).bind fun p => ?_
    exact simW_compressedCodes h _ _ _

theorem simW_recompressLoop (h : Takes W S T e) (bs : List Block) :
    SimW e (OnBitW S) (OnBitT T) (Serialise.recompressLoopOn W bs) (Serialise.recompressLoop bs) := by
  induction bs with
  | nil => exact .pure _
  | cons b bs ih => exact (simW_writeBit h _).bind fun _ => (simW_compressedBlock h b).bind fun _ => ih

end

/-! ### circles.rs and serialise.rs, decompressing -/

/-- The same dictionary, and the writers are related. -/
def OnDec {ω : Type} (S : ω → Sink → Prop) (w : DecStateOn ω) (s : DecState) : Prop :=
  S w.into s.into ∧ w.dict = s.dict

/-- The relation after a failure. -/
abbrev OnDecT {ω : Type} (T : ω → Sink → Prop) (w : DecStateOn ω) (s : DecState) : Prop := T w.into s.into

section

variable {ω : Type} {W : Writer ω} {S T : ω → Sink → Prop} {e : Fail}

theorem simW_dwrite (h : Takes W S T e) (buf : List UInt8) :
    SimW e (OnDec S) (OnDecT T) (DecStateOn.write W buf) (DecState.write buf) := by
  rintro w s ⟨h1, h2⟩
  unfold SimAt DecStateOn.write DecState.write
  cases hx : writeAll buf s.into with
  | ok u s' =>
    obtain ⟨w', h3, h4⟩ := h.ok h1 hx
    rw [h3]
    exact ⟨_, rfl, h4, h2⟩
  | error x s' =>
    obtain ⟨w', h3, h4⟩ := h.error h1 hx
    rw [h3]
    refine ⟨{ w with into := w' }, ?_, h4⟩
    have : x = .err .sink := by
      unfold writeAll at hx
      split at hx
      · cases hx
      · split at hx
        · cases hx
        · cases hx; rfl
    rw [this, relabelW_sink]

theorem simW_dpush (h : Takes W S T e) (b : UInt8) :
    SimW e (OnDec S) (OnDecT T) (DecStateOn.push b) (DecState.push b) := by
  rintro w s ⟨h1, h2⟩
  unfold SimAt DecStateOn.push DecState.push
  rw [h2]
  cases hx : s.dict.push b with
  | ok d => exact ⟨_, rfl, h1, rfl⟩
  | error x => exact ⟨w, by rw [relabelW_ne (Fail.ne_sink (own_push _ _ _ hx))], h.weaken h1⟩

theorem simW_dextend (h : Takes W S T e) (xs : List UInt8) :
    SimW e (OnDec S) (OnDecT T) (DecStateOn.extend xs) (DecState.extend xs) := by
  rintro w s ⟨h1, h2⟩
  unfold SimAt DecStateOn.extend DecState.extend
  rw [h2]
  cases hx : s.dict.extend xs with
  | ok d => exact ⟨_, rfl, h1, rfl⟩
  | error x => exact ⟨w, by rw [relabelW_ne (Fail.ne_sink (own_extend _ _ _ hx))], h.weaken h1⟩

theorem simW_copy (h : Takes W S T e) (dist len : Nat) :
    SimW e (OnDec S) (OnDecT T) (DecStateOn.copy W dist len) (DecState.copy dist len) := by
  have hloop : ∀ n i, SimW e (OnDec S) (OnDecT T) (DecStateOn.copyLoop W n i) (DecState.copyLoop n i) := by
    intro n
    induction n with
    | zero => intro i; exact .pure _
    | succ n ih =>
      intro i
      refine SimW.get_bind fun w s hs => ?_
      rw [hs.2]
      refine SimAt.liftE_bind (h.weaken hs.1) (fun f hf => Fail.ne_sink (own_index _ _ f hf)) fun b _ => ?_
      exact (simW_dwrite h [b] w s hs).bind fun _ => (simW_dpush h b).bind fun _ => ih _
  refine SimW.get_bind fun w s hs => ?_
  rw [hs.2]
  refine SimAt.liftE_bind (h.weaken hs.1) (fun f hf => Fail.ne_sink (own_ensure rfl f hf)) fun _ _ => ?_
  exact hloop _ _ w s hs

theorem simW_decompressedBlock (h : Takes W S T e) (b : Block) :
    SimW e (OnDec S) (OnDecT T) (Serialise.decompressedBlockOn W b) (Serialise.decompressedBlock b) := by
  have hcodes : ∀ cs, SimW e (OnDec S) (OnDecT T) (Serialise.decompressedCodesOn W cs) (Serialise.decompressedCodes cs) := by
    intro cs
    induction cs with
    | nil => exact .pure _
    | cons c cs ih =>
      refine SimW.bind ?_ fun _ => ih
      cases c with
      | literal x => exact (simW_dpush h x).bind fun _ => simW_dwrite h [x]
      | reference r => exact simW_copy h _ _
  cases b with
  | uncompressed data => exact (simW_dextend h _).bind fun _ => simW_dwrite h _
  | fixedHuffman cs => exact hcodes cs
  | dynamicHuffman _ cs => exact hcodes cs

end

/-! ### zero.rs -/

section

variable {ω : Type} {W : Writer ω} {S T : ω → Sink → Prop} {e : Fail}

theorem simW_writeAll (h : Takes W S T e) (buf : List UInt8) : SimW e S T (W.writeAll buf) (writeAll buf) := by
  intro w s hs
  unfold SimAt
  cases hx : writeAll buf s with
  | ok u s' => exact h.ok hs hx
  | error x s' =>
    obtain ⟨w', h3, h4⟩ := h.error hs hx
    refine ⟨w', ?_, h4⟩
    have : x = .err .sink := by
      unfold writeAll at hx
      split at hx
      · cases hx
      · split at hx
        · cases hx
        · cases hx; rfl
    rw [this, relabelW_sink, h3]

theorem simW_writeChunk (h : Takes W S T e) (last : Bool) (buf : List UInt8) :
    SimW e S T (Zero.writeChunkOn W last buf) (Zero.writeChunk last buf) :=
  (simW_writeAll h _).bind fun _ => (simW_writeAll h _).bind fun _ => (simW_writeAll h _).bind fun _ => simW_writeAll h _

theorem simW_zeroLoop (h : Takes W S T e) (take : EStateM Fail Zero.Source (List UInt8)) (P : Zero.Source → Prop)
    (hok : ∀ src a src', P src → take src = .ok a src' → P src')
    (herr : ∀ src x src', P src → take src = .error x src' → x ≠ .err .sink)
    (fuel : Nat) (src : Zero.Source) (len : Nat) (all : List UInt8) (hP : P src) :
    SimW e S T (Zero.loopOn W take fuel src len all) (Zero.loop take fuel src len all) := by
  induction fuel generalizing src len all with
  | zero => exact fun w s hs => .liftE hs (h.weaken hs) fun f hf => by cases hf; simp
  | succ fuel ih =>
    rw [Zero.loopOn, Zero.loop]
    cases hx : take src with
    | error x src' => exact fun w s hs => .liftE hs (h.weaken hs) fun f hf => by cases hf; exact herr _ _ _ hP hx
    | ok buf src' =>
      dsimp only
      split
      · exact .pure _
      · exact (simW_writeChunk h _ _).bind fun _ => ih _ _ _ (hok _ _ _ hP hx)

/-- No item is the error of a full sink. -/
def NoSink (src : Zero.Source) : Prop := ∀ x ∈ src, x ≠ .error (.err .sink)

theorem fill_noSink (n : Nat) (buf : List UInt8) (sum : Nat) (src : Zero.Source) (h : NoSink src) :
    match Zero.fill n buf sum src with
    | .ok _ src' => NoSink src'
    | .error x _ => x ≠ .err .sink := by
  induction n generalizing buf sum src with
  | zero => exact h
  | succ n ih =>
    match src with
    | [] => exact h
    | .error x :: rest => exact fun hx => h _ List.mem_cons_self (by rw [hx])
    | .ok b :: rest => exact ih _ _ _ fun x hx => h x (List.mem_cons_of_mem _ hx)

theorem roll_noSink (mod pos n : Nat) (buf : List UInt8) (sum : Nat) (src : Zero.Source) (h : NoSink src) :
    match Zero.roll mod pos n buf sum src with
    | .ok _ src' => NoSink src'
    | .error x _ => x ≠ .err .sink := by
  induction n generalizing pos buf sum src with
  | zero => exact h
  | succ n ih =>
    rw [Zero.roll]
    dsimp only
    by_cases hm : 0 = sum % mod
    · rw [if_pos hm]
      exact h
    · rw [if_neg hm]
      match src with
      | [] => exact h
      | .error x :: rest => exact fun hx => h _ List.mem_cons_self (by rw [hx])
      | .ok b :: rest =>
        have hrest : NoSink rest := fun x hx => h x (List.mem_cons_of_mem _ hx)
        dsimp only
        cases hi : index buf pos with
        | error x => exact Fail.ne_sink (own_index _ _ _ hi)
        | ok old => exact ih _ _ _ _ hrest

theorem takeRsync_noSink (src : Zero.Source) (h : NoSink src) :
    match Zero.takeRsync src with
    | .ok _ src' => NoSink src'
    | .error x _ => x ≠ .err .sink := by
  unfold Zero.takeRsync Zero.takeRsyncWith
  have hf := fill_noSink Zero.rsyncMin [] 0 src h
  cases hx : Zero.fill Zero.rsyncMin [] 0 src with
  | error x src' => rw [hx] at hf; rw [ES.bind_err hx]; exact hf
  | ok a src' =>
    rw [hx] at hf
    rw [ES.bind_ok hx]
    obtain ⟨ended, buf, sum⟩ := a
    cases ended with
    | true => exact hf
    | false => exact roll_noSink _ _ _ _ _ _ hf

theorem simW_runTo (h : Takes W S T e) (crc : List UInt8 → Nat) (header : List UInt8) (src : Zero.Source)
    (hsrc : NoSink src) : SimW e S T (Zero.runToOn W crc header src) (Zero.runTo crc header src) := by
  refine (SimW.liftE h.weaken (own_assert _)).bind fun _ => (simW_writeAll h _).bind fun _ => ?_
  refine (simW_zeroLoop h Zero.takeRsync NoSink ?_ ?_ _ src _ _ hsrc).bind fun p => ?_
  · intro src a src' hP hx
    have := takeRsync_noSink src hP
    rw [hx] at this
    exact this
  · intro src x src' hP hx
    have := takeRsync_noSink src hP
    rw [hx] at this
    exact this
  · obtain ⟨total, all⟩ := p
    exact (simW_writeAll h _).bind fun _ => simW_writeAll h _

end

/-! ### Where errors of reading come from -/

/-- An error is the end of the input, or not one of a reader or writer. -/
def Reads {σ α : Type} (x : EStateM Fail σ α) : Prop := ∀ s f s', x s = .error f s' → f ≠ .err .sink

namespace Reads

variable {σ α β : Type}

theorem bind {x : EStateM Fail σ α} {f : α → EStateM Fail σ β} (hx : Reads x) (hf : ∀ a, Reads (f a)) :
    Reads (x >>= f) := by
  intro s y s' h
  cases hr : x s with
  | error z s2 => rw [ES.bind_err hr] at h; cases h; exact hx _ _ _ hr
  | ok a s2 => rw [ES.bind_ok hr] at h; exact hf a _ _ _ h

theorem pure (a : α) : Reads (Pure.pure a : EStateM Fail σ α) := by intro s f s' h; cases h
theorem liftE {x : Except Fail α} (h : Own x) : Reads (Rezip.liftE x : EStateM Fail σ α) := by
  intro s f s' hx
  cases x with
  | ok a => cases hx
  | error y => cases hx; exact Fail.ne_sink (h _ rfl)
theorem get : Reads (MonadState.get : EStateM Fail σ σ) := by intro s f s' h; cases h
theorem ite {c : Prop} [Decidable c] {x y : EStateM Fail σ α} (hx : Reads x) (hy : Reads y) :
    Reads (if c then x else y) := by
  split
  · exact hx
  · exact hy

end Reads

theorem reads_readExact (n : Nat) : Reads (readExact n) := by
  intro s f s' h
  unfold readExact at h
  split at h
  · cases h
  · cases h; simp

theorem reads_readBit : Reads BitReader.readBit := by
  intro s f s' h
  unfold BitReader.readBit at h
  dsimp only at h
  split at h
  · cases hx : readExact 1 s.inner with
    | error x i => rw [hx] at h; cases h; exact reads_readExact _ _ _ _ hx
    | ok buf i =>
      rw [hx] at h
      match buf with
      | [b] => cases h
      | [] => cases h; simp
      | _ :: _ :: _ => cases h; simp
  · cases h

theorem reads_run {α : Type} (p : BitProg α) (hp : p.Own) : Reads (BitReader.run p) := by
  induction p with
  | done a => intro s f s' h; cases h
  | fail x => intro s f s' h; cases h; exact Fail.ne_sink hp
  | bit k ih =>
    intro s f s' h
    simp only [BitReader.run] at h
    cases hx : BitReader.readBit s with
    | error x i => rw [hx] at h; cases h; exact reads_readBit _ _ _ hx
    | ok b i => rw [hx] at h; exact ih b (hp b) _ _ _ h

theorem own_position (r : BitReader) : Own r.position := (own_assert _).bind fun _ => own_pure _

theorem reads_align : Reads BitReader.align := by
  have : ∀ fuel, Reads (BitReader.alignLoop fuel) := by
    intro fuel
    induction fuel with
    | zero => intro s f s' h; cases h; simp
    | succ fuel ih =>
      rw [BitReader.alignLoop]
      refine Reads.get.bind fun r => (Reads.liftE (own_position r)).bind fun p => .ite ?_ (.pure _)
      exact reads_readBit.bind fun b => (Reads.liftE (own_ensure (by simp))).bind fun _ => ih
  exact this 9

theorem reads_inner (n : Nat) : Reads (BitReader.readExactInner n) := by
  intro s f s' h
  unfold BitReader.readExactInner at h
  cases hx : readExact n s.inner with
  | error x i => rw [hx] at h; cases h; exact reads_readExact _ _ _ _ hx
  | ok buf i => rw [hx] at h; cases h

theorem reads_u16 : Reads BitReader.readAlignedU16 := by
  rw [BitReader.readAlignedU16]
  refine Reads.get.bind fun r => (Reads.liftE (own_position r)).bind fun p => (Reads.liftE (own_assert _)).bind fun _ => ?_
  exact (reads_inner 2).bind fun _ => (Reads.liftE (own_index _ _)).bind fun _ =>
    (Reads.liftE (own_index _ _)).bind fun _ => .pure _

theorem reads_prefixed : Reads BitReader.readLengthPrefixed := by
  rw [BitReader.readLengthPrefixed]
  refine Reads.get.bind fun r => (Reads.liftE (own_position r)).bind fun p => (Reads.liftE (own_assert _)).bind fun _ => ?_
  exact reads_u16.bind fun len => reads_u16.bind fun _ => (Reads.liftE (own_ensure (by simp))).bind fun _ => reads_inner _

theorem reads_scan (l : CodeTree) (d : Option CodeTree) : Reads (scanHuffmanData l d) := by
  intro s
  unfold scanHuffmanData
  exact reads_run _ (own_scanLoop _ _ _ _) s

theorem reads_block : Reads readBlock := by
  rw [readBlock]
  have hf := own_fixed
  generalize Huffman.fixedLengthTree = ft at hf ⊢
  generalize Huffman.fixedDistanceTree = dt at hf ⊢
  refine (reads_run _ (BitProg.own_readPart _)).bind fun kind => ?_
  match kind with
  | 0 => exact reads_align.bind fun _ => reads_prefixed.bind fun _ => .pure _
  | 1 =>
    exact (Reads.liftE hf.1).bind fun _ => (Reads.liftE hf.2).bind fun _ =>
      (reads_scan _ _).bind fun _ => .pure _
  | 2 => exact (reads_run _ (BitProg.own_collect own_readCodes _)).bind fun _ => (reads_scan _ _).bind fun _ => .pure _
  | 3 => exact Reads.liftE (by simp [Own])
  | _ + 4 => exact Reads.liftE (by simp [Own])

theorem next_ne_sink {o o' : BlockIter} {x : Fail} (h : o.next = (some (.error x), o')) : x ≠ .err .sink := by
  unfold BlockIter.next at h
  split at h
  · cases hx : BitReader.align o.inner with
    | ok a s => rw [hx] at h; cases h
    | error y s => rw [hx] at h; cases h; exact reads_align _ _ _ hx
  · cases hx : BitReader.readBit o.inner with
    | error y s => rw [hx] at h; cases h; exact reads_readBit _ _ _ hx
    | ok b s =>
      rw [hx] at h
      dsimp only at h
      cases hy : readBlock s with
      | error y s2 => rw [hy] at h; cases h; exact reads_block _ _ _ hy
      | ok blk s2 => rw [hy] at h; cases h

theorem reads_nullTerminated : Reads Gzip.readNullTerminated := by
  intro s
  induction s with
  | nil => intro f s' h; simp only [Gzip.readNullTerminated] at h; cases h; simp
  | cons b s ih =>
    intro f s' h
    simp only [Gzip.readNullTerminated] at h
    split at h
    · cases h
    · cases hx : Gzip.readNullTerminated s with
      | ok a s2 => rw [hx] at h; cases h
      | error y s2 => rw [hx] at h; cases h; exact ih _ _ hx

theorem reads_optional {c : Bool} {x : EStateM Fail (List UInt8) (List UInt8)} (h : Reads x) : Reads (Gzip.optional c x) := by
  unfold Gzip.optional
  exact .ite h (.pure _)

theorem reads_header : Reads Gzip.discardHeader := by
  rw [Gzip.discardHeader]
  refine (reads_readExact 10).bind fun header => ?_
  refine (Reads.liftE (own_index _ _)).bind fun _ => (Reads.liftE (own_index _ _)).bind fun _ => ?_
  refine (Reads.liftE (own_ensure (by simp))).bind fun _ => (Reads.liftE (own_index _ _)).bind fun _ => ?_
  refine (Reads.liftE (own_ensure (by simp))).bind fun _ => (Reads.liftE (own_index _ _)).bind fun _ => ?_
  refine (Reads.liftE (own_ensure (by simp))).bind fun _ => ?_
  have he : Reads Gzip.readExtra := by
    rw [Gzip.readExtra]
    exact (reads_readExact 2).bind fun buf => (Reads.liftE (own_index _ _)).bind fun _ =>
      (Reads.liftE (own_index _ _)).bind fun _ => (reads_readExact _).bind fun _ => .pure _
  refine (reads_optional he).bind fun _ => (reads_optional reads_nullTerminated).bind fun _ => ?_
  exact (reads_optional reads_nullTerminated).bind fun _ => (reads_optional (reads_readExact 2)).bind fun _ => .pure _

/-! ### cat.rs -/

/-- The outcome with the error `e` in place of the end of the input, and `e'` in place of that of a full sink. -/
def withBoth {α : Type} (e e' : Fail) : Except Fail α → Except Fail α
  | .ok a => .ok a
  | .error x => .error (if x = .err .eof then e else if x = .err .sink then e' else x)

section

variable {ρ : Type} {R : Reader ρ} {SR : ρ → List UInt8 → Prop} {e : Fail}
variable {ω : Type} {W : Writer ω} {S T : ω → Sink → Prop} {e' : Fail}

theorem both_ne {α : Type} {x : Fail} (h1 : x ≠ .err .eof) : withBoth (α := α) e e' (.error x) = .error (relabelW e' x) := by
  rw [withBoth, if_neg h1, relabelW]

theorem both_ne' {α : Type} {x : Fail} (h1 : x ≠ .err .sink) : withBoth (α := α) e e' (.error x) = .error (relabel e x) := by
  rw [withBoth, relabel, if_neg h1]

theorem sim_catLoopIO (h : Serves R SR e) (hW : Takes W S T e') (fuel : Nat) {g : BlockIterOn ρ} {o : BlockIter}
    (ho : OnIter SR g o) (w : DecStateOn ω) (st : DecState) (hs : OnDec S w st) :
    ∃ w', Cat.loopIO R W fuel g w = (withBoth e e' (Cat.loop fuel o st).1, w') ∧
      OnDecT T w' (Cat.loop fuel o st).2.1 := by
  induction fuel generalizing g o w st with
  | zero =>
    rw [Cat.loopIO, Cat.loop, both_ne (by simp), relabelW_ne (by simp)]
    exact ⟨w, rfl, hW.weaken hs.1⟩
  | succ fuel ih =>
    have hn := sim_next h ho
    rw [Cat.loopIO, Cat.loop]
    match hx : o.next with
    | (none, o') =>
      rw [hx] at hn
      obtain ⟨g', hn, _⟩ := hn
      rw [hn]
      exact ⟨w, rfl, hW.weaken hs.1⟩
    | (some (.error x), o') =>
      rw [hx] at hn
      obtain ⟨g', hn⟩ := hn
      rw [hn]
      dsimp only
      rw [both_ne' (next_ne_sink hx)]
      exact ⟨w, rfl, hW.weaken hs.1⟩
    | (some (.ok b), o') =>
      rw [hx] at hn
      obtain ⟨g', hn, ho'⟩ := hn
      rw [hn]
      dsimp only
      have hd := simW_decompressedBlock hW b w st hs
      unfold SimAt at hd
      cases hx : Serialise.decompressedBlock b st with
      | ok u st' =>
        rw [hx] at hd
        obtain ⟨w', hd, hs'⟩ := hd
        rw [hd]
        exact ih ho' w' st' hs'
      | error x st' =>
        rw [hx] at hd
        obtain ⟨w', hd, ht⟩ := hd
        rw [hd]
        dsimp only
        rw [both_ne ((ownS_block b).ne hx)]
        exact ⟨w', rfl, ht⟩

theorem sim_catIO (h : Serves R SR e) (hW : Takes W S T e') {r : ρ} {bytes : List UInt8} (hs : SR r bytes)
    {w : ω} {stdout : Sink} (hw : S w stdout) :
    ∃ w', Cat.runIO R W r w = (withBoth e e' (Cat.run bytes stdout).1, w') ∧ T w' (Cat.run bytes stdout).2 := by
  have hh := sim_discardHeader h r bytes hs
  unfold Cat.runIO Cat.run
  cases hx : Gzip.discardHeader bytes with
  | error x s' =>
    rw [hx] at hh
    obtain ⟨r', hh⟩ := hh
    rw [hh]
    dsimp only
    rw [both_ne' (reads_header _ _ _ hx)]
    exact ⟨w, rfl, hW.weaken hw⟩
  | ok a s' =>
    rw [hx] at hh
    obtain ⟨r', hh, hs'⟩ := hh
    rw [hh]
    dsimp only
    have hnew : Own CircularBuffer.new := (own_assert _).bind fun _ => own_pure _
    generalize hd : CircularBuffer.new = nd at hnew
    cases nd with
    | error x =>
      dsimp only
      rw [both_ne (Fail.ne_eof (hnew _ rfl)), relabelW_ne (Fail.ne_sink (hnew _ rfl))]
      exact ⟨w, rfl, hW.weaken hw⟩
    | ok dict =>
      dsimp only
      rw [h.size hs']
      obtain ⟨w', h1, h2⟩ := sim_catLoopIO h hW (8 * s'.length + 2) (onIter_parse hs')
        { dict := dict, into := w } { dict := dict, into := stdout } ⟨hw, rfl⟩
      rw [h1]
      exact ⟨_, rfl, h2⟩

end

/-! ### Pipes -/

namespace Pipe

/-- After `base`, the pipe has taken what the sink has taken, will take what there is room for, and then fail
with `e`. -/
def Like (base : List UInt8) (e : Fail) (w : Pipe) (s : Sink) : Prop :=
  w.out = base ++ s.out ∧ roomOf w.events = s.room ∧ failureOf w.events = e

theorem loop_like (base : List UInt8) (e : Fail) (fuel : Nat) (buf : List UInt8) (w : Pipe) (s : Sink) (h : Like base e w s)
    (hf : w.events.length + 2 ≤ fuel) :
    match Rezip.writeAll buf s with
    | .ok _ s' => ∃ w', writeAllLoop fuel buf w = .ok () w' ∧ Like base e w' s'
    | .error _ s' => ∃ w', writeAllLoop fuel buf w = .error e w' ∧ w'.out = base ++ s'.out := by
  induction fuel generalizing buf w s with
  | zero => omega
  | succ fuel ih =>
    obtain ⟨h1, h2, h3⟩ := h
    obtain ⟨out, room⟩ := s
    obtain ⟨out', events⟩ := w
    dsimp only at h1 h2 h3 hf
    subst h1
    rw [writeAllLoop]
    by_cases hb : buf = []
    · subst hb
      dsimp only [List.isEmpty_nil]
      rw [if_pos rfl]
      unfold Rezip.writeAll
      cases room with
      | none => exact ⟨_, rfl, by simp, h2, h3⟩
      | some r =>
        dsimp only
        rw [if_pos (by simp)]
        exact ⟨_, rfl, by simp, by simpa using h2, h3⟩
    · dsimp only
      rw [if_neg (by simpa using hb)]
      have hl : 0 < buf.length := List.length_pos_iff.mpr hb
      obtain ⟨fuel, rfl⟩ : ∃ k, fuel = k + 1 := ⟨fuel - 1, by omega⟩
      have hend : ∀ p : Pipe, writeAllLoop (fuel + 1) (buf.drop buf.length) p = .ok () p := by
        intro p
        rw [writeAllLoop, List.drop_length]
        rfl
      match events with
      | [] =>
        rw [roomOf] at h2
        subst h2
        rw [write]
        dsimp only
        rw [hend]
        exact ⟨_, rfl, by simp, rfl, h3⟩
      | .interrupted :: rest =>
        rw [write]
        dsimp only
        exact ih buf ⟨base ++ out, rest⟩ ⟨out, room⟩ ⟨rfl, h2, h3⟩ (by simp only [List.length_cons] at hf; dsimp only; omega)
      | .failure x :: rest =>
        rw [roomOf] at h2
        rw [failureOf] at h3
        subst h2 h3
        rw [write]
        unfold Rezip.writeAll
        dsimp only
        rw [if_neg (by omega)]
        exact ⟨_, rfl, by simp⟩
      | .takes n :: rest =>
        rw [roomOf] at h2
        rw [failureOf] at h3
        rw [write]
        dsimp only
        by_cases hn : n + 1 ≤ buf.length
        · rw [if_pos hn]
          dsimp only
          have := ih (buf.drop (n + 1)) ⟨base ++ out ++ buf.take (n + 1), rest⟩ ⟨out ++ buf.take (n + 1), roomOf rest⟩
            ⟨by simp, rfl, h3⟩ (by simp only [List.length_cons] at hf; dsimp only; omega)
          unfold Rezip.writeAll at this ⊢
          dsimp only at this ⊢
          cases hr : roomOf rest with
          | none =>
            rw [hr] at h2 this
            subst h2
            dsimp only [Option.map_none] at this ⊢
            rw [List.append_assoc out, List.take_append_drop] at this
            exact this
          | some r =>
            rw [hr] at h2 this
            subst h2
            dsimp only [Option.map_some] at this ⊢
            rw [List.length_drop] at this
            by_cases hfit : buf.length - (n + 1) ≤ r
            · rw [if_pos hfit] at this
              rw [if_pos (by omega)]
              dsimp only at this ⊢
              rw [List.append_assoc out, List.take_append_drop] at this
              rw [show n + 1 + r - buf.length = r - (buf.length - (n + 1)) by omega]
              exact this
            · rw [if_neg hfit] at this
              rw [if_neg (by omega)]
              dsimp only at this ⊢
              rw [List.append_assoc out, ← List.take_add] at this
              exact this
        · rw [if_neg hn]
          dsimp only
          rw [hend]
          unfold Rezip.writeAll
          cases hr : roomOf rest with
          | none =>
            rw [hr] at h2
            subst h2
            exact ⟨_, rfl, by simp, by simp [roomOf, hr], h3⟩
          | some r =>
            rw [hr] at h2
            subst h2
            dsimp only [Option.map_some]
            rw [if_pos (by omega)]
            refine ⟨_, rfl, by simp, ?_, h3⟩
            simp only [roomOf, hr, Option.map_some, Option.some.injEq]
            omega

theorem takes (base : List UInt8) (e : Fail) :
    Takes Pipe.writer (Like base e) (fun w s => w.out = base ++ s.out) e where
  weaken h := h.1
  ok {w s s' buf} h hx := by
    have := loop_like base e _ buf w s h (Nat.le_refl _)
    rw [hx] at this
    exact this
  error {w s s' x buf} h hx := by
    have := loop_like base e _ buf w s h (Nat.le_refl _)
    rw [hx] at this
    exact this

end Pipe

end Rezip
