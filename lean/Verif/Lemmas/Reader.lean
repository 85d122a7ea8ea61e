import Verif.Model.Reader
import Verif.Lemmas.Monad

/-!
# A reader of any kind does what a byte string does
-/

namespace Rezip

open Parse

/-- The error in place of the end of the input. -/
def relabel (e : Fail) (x : Fail) : Fail := if x = .err .eof then e else x

theorem relabel_ne {e x : Fail} (h : x ≠ .err .eof) : relabel e x = x := by simp [relabel, h]

theorem relabel_eof {e : Fail} : relabel e (.err .eof) = e := by simp [relabel]

/-- `S r bytes`: the reader in state `r` will deliver `bytes` and then fail with `e`. -/
structure Serves {ρ : Type} (R : Reader ρ) (S : ρ → List UInt8 → Prop) (e : Fail) : Prop where
  exact : ∀ {r bytes n}, S r bytes → n ≤ bytes.length →
    ∃ r', R.readExact n r = .ok (bytes.take n) r' ∧ S r' (bytes.drop n)
  short : ∀ {r bytes n}, S r bytes → bytes.length < n → ∃ r', R.readExact n r = .error e r'
  size : ∀ {r bytes}, S r bytes → R.size r = bytes.length

/-- An error that is not one of a reader or a writer. -/
@[simp] def Fail.ours : Fail → Bool
  | .err .eof => false
  | .err .sink => false
  | .err .device => false
  | _ => true

theorem Fail.ne_eof {x : Fail} (h : x.ours = true) : x ≠ .err .eof := by rintro rfl; cases h
theorem Fail.ne_sink {x : Fail} (h : x.ours = true) : x ≠ .err .sink := by rintro rfl; cases h

/-- No error of a reader or a writer. -/
def Own {α : Type} (x : Except Fail α) : Prop := ∀ f, x = .error f → f.ours = true

theorem Own.bind {α β : Type} {x : Except Fail α} {f : α → Except Fail β} (hx : Own x) (hf : ∀ a, Own (f a)) :
    Own (x >>= f) := by
  cases x with
  | ok a => exact hf a
  | error e => intro y h; cases h; exact hx _ rfl

theorem own_pure {α : Type} (a : α) : Own (pure a : Except Fail α) := by intro y h; cases h
theorem own_ok {α : Type} (a : α) : Own (.ok a : Except Fail α) := by intro y h; cases h
theorem own_error {α : Type} {e : Fail} (h : e.ours = true) : Own (.error e : Except Fail α) := by
  intro y hy; cases hy; exact h
theorem own_ensure {c : Bool} {e : Err} (h : (Fail.err e).ours = true) : Own (ensure c e) := by
  cases c
  · exact own_error h
  · exact own_ok _
theorem own_assert (c : Bool) : Own (assert c) := by unfold Own assert; cases c <;> simp
theorem own_index {α : Type} (xs : List α) (i : Nat) : Own (index xs i) := by
  unfold Own index; split <;> simp
theorem own_indexSet {α : Type} (xs : List α) (i : Nat) (v : α) : Own (indexSet xs i v) := by
  unfold Own indexSet; split <;> simp

/-! ### Simulation -/

/-- `g` does what `o` does, with the error `e` where `o` meets the end of the input. -/
def Sim {σ₁ σ₂ α : Type} (e : Fail) (S : σ₁ → σ₂ → Prop) (g : EStateM Fail σ₁ α) (o : EStateM Fail σ₂ α) : Prop :=
  ∀ r s, S r s → match o s with
    | .ok a s' => ∃ r', g r = .ok a r' ∧ S r' s'
    | .error x _ => ∃ r', g r = .error (relabel e x) r'

namespace Sim

variable {σ₁ σ₂ α β : Type} {e : Fail} {S : σ₁ → σ₂ → Prop}

theorem bind {g : EStateM Fail σ₁ α} {o : EStateM Fail σ₂ α} {g' : α → EStateM Fail σ₁ β}
    {o' : α → EStateM Fail σ₂ β} (h : Sim e S g o) (h' : ∀ a, Sim e S (g' a) (o' a)) :
    Sim e S (g >>= g') (o >>= o') := by
  intro r s hs
  have h1 := h r s hs
  cases ho : o s with
  | error x s' =>
    rw [ho] at h1
    obtain ⟨r', h1⟩ := h1
    rw [ES.bind_err ho]
    exact ⟨r', ES.bind_err h1⟩
  | ok a s' =>
    rw [ho] at h1
    obtain ⟨r', h1, h2⟩ := h1
    rw [ES.bind_ok ho, ES.bind_ok h1]
    exact h' a r' s' h2

theorem pure (a : α) : Sim e S (Pure.pure a) (Pure.pure a) := fun r _ hs => ⟨r, rfl, hs⟩

theorem liftE {x : Except Fail α} (h : Own x) : Sim e S (Rezip.liftE x) (Rezip.liftE x) := by
  intro r s hs
  cases x with
  | ok a => exact ⟨r, rfl, hs⟩
  | error x => exact ⟨r, by rw [relabel_ne (Fail.ne_eof (h _ rfl))]; rfl⟩

theorem ite {c : Bool} {g g' : EStateM Fail σ₁ α} {o o' : EStateM Fail σ₂ α} (h : Sim e S g o)
    (h' : Sim e S g' o') : Sim e S (if c then g else g') (if c then o else o') := by
  cases c
  · exact h'
  · exact h

end Sim

/-! ### Byte level -/

theorem sim_readExact {ρ : Type} {R : Reader ρ} {S : ρ → List UInt8 → Prop} {e : Fail} (h : Serves R S e) (n : Nat) :
    Sim e S (R.readExact n) (readExact n) := by
  intro r s hs
  unfold readExact
  by_cases hn : n ≤ s.length
  · rw [if_pos hn]
    exact h.exact hs hn
  · rw [if_neg hn]
    dsimp only
    rw [relabel_eof]
    exact h.short hs (by omega)

/-! ### Bit level -/

/-- The bit readers are at the same place. -/
def OnBits {ρ : Type} (S : ρ → List UInt8 → Prop) (r : BitReaderOn ρ) (s : BitReader) : Prop :=
  S r.inner s.inner ∧ r.current = s.current ∧ r.remainingBits = s.remainingBits

section

variable {ρ : Type} {R : Reader ρ} {S : ρ → List UInt8 → Prop} {e : Fail}

theorem sim_takeBit {r : BitReaderOn ρ} {s : BitReader} (h : OnBits S r s) :
    ∃ r', BitReaderOn.takeBit r = .ok (1 == ((s.current >>> (7 - (s.remainingBits - 1)).toUInt8) &&& 1)) r' ∧
      OnBits S r' { s with remainingBits := s.remainingBits - 1 } := by
  obtain ⟨h1, h2, h3⟩ := h
  refine ⟨{ r with remainingBits := r.remainingBits - 1 }, ?_, h1, h2, by rw [h3]⟩
  rw [← h2, ← h3]
  rfl

theorem sim_readBit (h : Serves R S e) : Sim e (OnBits S) (BitReaderOn.readBit R) BitReader.readBit := by
  intro r s hs
  obtain ⟨h1, h2, h3⟩ := hs
  unfold BitReaderOn.readBit BitReader.readBit
  dsimp only
  by_cases h0 : s.remainingBits = 0
  · rw [h0] at h3
    rw [if_pos (by simp [h0]), if_pos (by simp [h3])]
    have hr := sim_readExact h 1 r.inner s.inner h1
    cases hx : readExact 1 s.inner with
    | error x s' =>
      rw [hx] at hr
      obtain ⟨r', hr⟩ := hr
      exact ⟨_, by rw [hr]⟩
    | ok buf s' =>
      rw [hx] at hr
      obtain ⟨r', hr, hs'⟩ := hr
      rw [hr]
      dsimp only
      match buf with
      | [b] => exact sim_takeBit (s := { inner := s', current := b, remainingBits := 8 }) ⟨hs', rfl, rfl⟩
      | [] => exact ⟨_, by rw [relabel_ne (by simp)]⟩
      | _ :: _ :: _ => exact ⟨_, by rw [relabel_ne (by simp)]⟩
  · rw [if_neg (by simpa using h0), if_neg (by rw [h3]; simpa using h0)]
    exact sim_takeBit ⟨h1, h2, h3⟩

/-- No error of the program is one of a reader or a writer. -/
def BitProg.Own {α : Type} : BitProg α → Prop
  | .done _ => True
  | .fail x => x.ours = true
  | .bit k => ∀ b, (k b).Own

theorem sim_run {α : Type} (h : Serves R S e) (p : BitProg α) (hp : p.Own) :
    Sim e (OnBits S) (BitReaderOn.run R p) (BitReader.run p) := by
  induction p with
  | done a => exact fun r _ hs => ⟨r, rfl, hs⟩
  | fail x => exact fun r _ _ => ⟨r, by rw [relabel_ne (Fail.ne_eof hp)]; rfl⟩
  | bit k ih =>
    intro r s hs
    have hb := sim_readBit h r s hs
    simp only [BitReader.run, BitReaderOn.run]
    cases hx : BitReader.readBit s with
    | error x s' =>
      rw [hx] at hb
      obtain ⟨r', hb⟩ := hb
      exact ⟨r', by rw [hb]⟩
    | ok b s' =>
      rw [hx] at hb
      obtain ⟨r', hb, hs'⟩ := hb
      rw [hb]
      exact ih b (hp b) r' s' hs'

theorem sim_position {α : Type} {g : Nat → EStateM Fail (BitReaderOn ρ) α} {o : Nat → EStateM Fail BitReader α}
    (h : ∀ p, Sim e (OnBits S) (g p) (o p)) :
    Sim e (OnBits S) (do let r ← get; let p ← liftE r.position; g p)
      (do let r ← get; let p ← liftE r.position; o p) := by
  intro r s hs
  have hp : r.position = s.position := by
    unfold BitReaderOn.position BitReader.position
    rw [hs.2.2]
  rw [ES.bind_ok (x := (get : EStateM Fail BitReader BitReader)) (a := s) (s' := s) rfl]
  rw [ES.bind_ok (x := (get : EStateM Fail (BitReaderOn ρ) (BitReaderOn ρ))) (a := r) (s' := r) rfl, hp]
  have hown : Own s.position := (own_assert _).bind fun _ => own_pure _
  exact (Sim.liftE hown).bind h r s hs

theorem sim_align (h : Serves R S e) : Sim e (OnBits S) (BitReaderOn.align R) BitReader.align := by
  have : ∀ fuel, Sim e (OnBits S) (BitReaderOn.alignLoop R fuel) (BitReader.alignLoop fuel) := by
    intro fuel
    induction fuel with
    | zero => exact fun r _ _ => ⟨r, by rw [relabel_ne (by simp)]; rfl⟩
    | succ fuel ih =>
      rw [BitReaderOn.alignLoop, BitReader.alignLoop]
      refine sim_position fun p => Sim.ite ?_ (.pure _)
      exact (sim_readBit h).bind fun b => (Sim.liftE (own_ensure (by simp))).bind fun _ => ih
  exact this 9

theorem sim_readExactInner (h : Serves R S e) (n : Nat) :
    Sim e (OnBits S) (BitReaderOn.readExactInner R n) (BitReader.readExactInner n) := by
  intro r s hs
  have hr := sim_readExact h n r.inner s.inner hs.1
  unfold BitReaderOn.readExactInner BitReader.readExactInner
  cases hx : readExact n s.inner with
  | error x s' =>
    rw [hx] at hr
    obtain ⟨r', hr⟩ := hr
    exact ⟨_, by rw [hr]⟩
  | ok buf s' =>
    rw [hx] at hr
    obtain ⟨r', hr, hs'⟩ := hr
    rw [hr]
    exact ⟨_, rfl, hs', hs.2.1, hs.2.2⟩

theorem sim_readAlignedU16 (h : Serves R S e) :
    Sim e (OnBits S) (BitReaderOn.readAlignedU16 R) BitReader.readAlignedU16 := by
  rw [BitReaderOn.readAlignedU16, BitReader.readAlignedU16]
  refine sim_position fun p => (Sim.liftE (own_assert _)).bind fun _ => (sim_readExactInner h 2).bind fun buf => ?_
  exact (Sim.liftE (own_index _ _)).bind fun _ => (Sim.liftE (own_index _ _)).bind fun _ => .pure _

theorem sim_readLengthPrefixed (h : Serves R S e) :
    Sim e (OnBits S) (BitReaderOn.readLengthPrefixed R) BitReader.readLengthPrefixed := by
  rw [BitReaderOn.readLengthPrefixed, BitReader.readLengthPrefixed]
  refine sim_position fun p => (Sim.liftE (own_assert _)).bind fun _ => (sim_readAlignedU16 h).bind fun len => ?_
  exact (sim_readAlignedU16 h).bind fun _ => (Sim.liftE (own_ensure (by simp))).bind fun _ => sim_readExactInner h _

end

/-! ### The programs -/

namespace BitProg

variable {α β : Type}

theorem Own.bind {p : BitProg α} {f : α → BitProg β} (hp : p.Own) (hf : ∀ a, (f a).Own) : (p >>= f).Own := by
  show (BitProg.bind p f).Own
  induction p with
  | done a => exact hf a
  | fail x => exact hp
  | bit k ih => exact fun b => ih b (hp b)

theorem own_pure (a : α) : (Pure.pure a : BitProg α).Own := trivial

theorem own_ofExcept {x : Except Fail α} (h : Rezip.Own x) : (ofExcept x).Own := by
  cases x with
  | ok a => trivial
  | error x => exact h _ rfl

theorem own_fail {x : Fail} (h : x.ours = true) : (BitProg.fail x : BitProg α).Own := h

theorem own_readPart (n : Nat) : (readPart n).Own := by
  unfold readPart
  split
  · have : ∀ n i res, (readPartLoop i n res).Own := by
      intro n
      induction n with
      | zero => intro i res; trivial
      | succ n ih => intro i res b; exact ih _ _
    exact this _ _ _
  · simp [Own]

theorem own_collect {p : BitProg α} (hp : p.Own) (v : BitVector) : (p.collect v).Own := by
  induction p generalizing v with
  | done a => trivial
  | fail x => exact hp
  | bit k ih =>
    intro b
    have hpush : Rezip.Own (v.push b) := by
      unfold BitVector.push
      dsimp only
      have hjp : ∀ bytes : List UInt8, Rezip.Own (if b = true then do
          let w ← index bytes (v.len / 8)
          let bytes ← indexSet bytes (v.len / 8) (w ||| 1 <<< (v.len % 8).toUInt8)
          pure { bytes := bytes, len := v.len + 1 }
        else pure ({ bytes := bytes, len := v.len + 1 } : BitVector)) := by
        intro bytes
        split
        · exact (own_index _ _).bind fun _ => (own_indexSet _ _ _).bind fun _ => Rezip.own_pure _
        · exact Rezip.own_pure _
      split
      · exact (own_assert _).bind fun _ => (Rezip.own_pure _).bind fun _ => hjp _
      · exact (Rezip.own_pure _).bind fun _ => hjp _
    show Own (match v.push b with | .ok data => (k b).collect data | .error e => .fail e)
    cases hv : v.push b with
    | ok v' => exact ih b (hp b) v'
    | error x => exact hpush _ hv

end BitProg

open BitProg in
theorem own_decodeSymbol (t : CodeTree) : t.decodeSymbol.Own := by
  have : ∀ n, (CodeTree.decodeNode n).Own := by
    intro n
    induction n with
    | leaf _ => trivial
    | internal l r hl hr =>
      intro b
      cases b
      · exact hl
      · exact hr
  exact this _

theorem own_newTree (lens : List Nat) : Own (CodeTree.new lens) := by
  have hleaves : ∀ i, Own (CodeTree.leavesAt lens i) := by
    intro i
    unfold CodeTree.leavesAt
    generalize lens.zipIdx.filter _ = l
    induction l with
    | nil => exact own_pure _
    | cons x l ih =>
      rw [List.mapM_cons]
      refine Own.bind ?_ fun _ => ih.bind fun _ => own_pure _
      split
      · exact own_ok _
      · simp [Own]
  have hlevel : ∀ i nodes, Own (CodeTree.level lens i nodes) := by
    intro i nodes
    unfold CodeTree.level
    refine (own_ensure (by simp)).bind fun _ => ?_
    dsimp only
    split
    · exact (hleaves i).bind fun _ => own_pure _
    · exact (own_pure _).bind fun _ => own_pure _
  have hlevels : ∀ i nodes, Own (CodeTree.levelsFrom lens i nodes) := by
    intro i
    induction i with
    | zero => intro nodes; exact hlevel 0 nodes
    | succ i ih => intro nodes; exact (hlevel _ _).bind fun _ => ih _
  unfold CodeTree.new
  refine (own_ensure (by simp)).bind fun _ => (own_ensure (by simp)).bind fun _ => (hlevels _ _).bind fun nodes =>
    (own_ensure (by simp)).bind fun _ => ?_
  split <;> simp [Own, pure, Except.pure]

theorem own_distanceTree (l : List Nat) : Own (Huffman.distanceTree l) := by
  unfold Huffman.distanceTree
  split
  · exact own_pure _
  · dsimp only
    split
    · exact (own_newTree _).bind fun _ => own_pure _
    · exact (own_newTree _).bind fun _ => own_pure _

open BitProg in
theorem own_readCodes : Huffman.readCodes.Own := by
  have h1 : ∀ n i lens, (Huffman.readCodeLenLens i n lens).Own := by
    intro n
    induction n with
    | zero => intro i lens; trivial
    | succ n ih =>
      intro i lens
      exact (own_readPart _).bind fun _ => (own_ofExcept (own_indexSet _ _ _)).bind fun _ => ih _ _
  have h2 : ∀ t len fuel i rv rl lens, (Huffman.codeLensLoop t len fuel i rv rl lens).Own := by
    intro t len fuel
    induction fuel with
    | zero => intro i rv rl lens; simp [Huffman.codeLensLoop, BitProg.Own]
    | succ fuel ih =>
      intro i rv rl lens
      unfold Huffman.codeLensLoop
      refine BitProg.Own.bind ?_ fun p => ?_
      · split
        · split
          · exact (own_ofExcept (own_indexSet _ _ _)).bind fun _ => BitProg.own_pure _
          · exact own_fail (by simp)
        · refine (own_decodeSymbol t).bind fun sym => ?_
          split
          · exact (own_ofExcept (own_indexSet _ _ _)).bind fun _ => BitProg.own_pure _
          · split
            · exact (own_ofExcept (own_ensure (by simp))).bind fun _ =>
                (own_readPart _).bind fun _ => BitProg.own_pure _
            · split
              · exact (own_readPart _).bind fun _ => BitProg.own_pure _
              · split
                · exact (own_readPart _).bind fun _ => BitProg.own_pure _
                · exact own_fail (by simp)
      · obtain ⟨i, rv, rl, lens⟩ := p
        dsimp only
        split
        · exact (own_ofExcept (own_ensure (by simp))).bind fun _ => BitProg.own_pure _
        · exact ih _ _ _ _
  unfold Huffman.readCodes
  refine (own_readPart _).bind fun _ => ?_
  refine (own_readPart _).bind fun _ => ?_
  refine (own_readPart _).bind fun _ => ?_
  refine (own_readPart _).bind fun _ => ?_
  refine (own_readPart _).bind fun _ => ?_
  refine (own_readPart _).bind fun _ => ?_
  refine (own_readPart _).bind fun _ => ?_
  refine (h1 _ _ _).bind fun _ => ?_
  refine (own_ofExcept (own_newTree _)).bind fun _ => ?_
  refine (h2 _ _ _ _ _ _ _).bind fun _ => ?_
  exact (own_ofExcept (own_newTree _)).bind fun _ => (own_ofExcept (own_distanceTree _)).bind fun _ =>
    BitProg.own_pure _

theorem own_ref (dist run : Nat) : Own (Ref.new dist run) :=
  (own_assert _).bind fun _ => (own_assert _).bind fun _ => (own_assert _).bind fun _ => (own_assert _).bind fun _ =>
    own_ok _

open BitProg in
theorem own_scanLoop (l : CodeTree) (d : Option CodeTree) (fuel : Nat) (ret : List Code) :
    (scanLoop l d fuel ret).Own := by
  have hrun : ∀ sym, (Huffman.decodeRunLength sym).Own := by
    intro sym
    unfold Huffman.decodeRunLength
    refine (own_ofExcept (own_ensure (by simp))).bind fun _ => ?_
    split
    · exact BitProg.own_pure _
    · split
      · exact (own_ofExcept (own_assert _)).bind fun _ => (own_readPart _).bind fun _ => BitProg.own_pure _
      · split
        · exact BitProg.own_pure _
        · exact own_fail (by simp)
  have hdist : ∀ sym, (Huffman.decodeDistance sym).Own := by
    intro sym
    unfold Huffman.decodeDistance
    split
    · exact BitProg.own_pure _
    · split
      · exact (own_readPart _).bind fun _ => BitProg.own_pure _
      · split
        · exact own_fail (by simp)
        · exact own_fail (by simp)
  have hcode : (scanCode l d).Own := by
    unfold scanCode
    refine (own_decodeSymbol l).bind fun sym => ?_
    split
    · exact BitProg.own_pure _
    · split
      · exact BitProg.own_pure _
      · refine (hrun _).bind fun run => ?_
        have hjp : ∀ ds, (do
            let dist ← Huffman.decodeDistance ds
            BitProg.ofExcept (ensure (decide (dist ≥ 1) && decide (dist ≤ 32786)) Err.invalidDistance)
            let r ← BitProg.ofExcept (Ref.new dist run)
            pure (some (Code.reference r))).Own := by
          intro ds
          refine (hdist _).bind fun dist => (own_ofExcept (own_ensure (by simp))).bind fun _ => ?_
          exact (own_ofExcept (own_ref _ _)).bind fun _ => BitProg.own_pure _
        cases d with
        | none => exact (own_fail (by simp)).bind hjp
        | some t => exact (own_decodeSymbol t).bind hjp
  induction fuel generalizing ret with
  | zero => simp [scanLoop, BitProg.Own]
  | succ fuel ih =>
    rw [scanLoop]
    refine hcode.bind fun c => ?_
    cases c with
    | none => exact BitProg.own_pure _
    | some c => exact ih _

/-! ### Blocks -/

section

variable {ρ : Type} {R : Reader ρ} {S : ρ → List UInt8 → Prop} {e : Fail}

theorem sim_scan (h : Serves R S e) (l : CodeTree) (d : Option CodeTree) :
    Sim e (OnBits S) (scanHuffmanDataOn R l d) (scanHuffmanData l d) := by
  intro r s hs
  unfold scanHuffmanDataOn scanHuffmanData bitsLeft
  rw [h.size hs.1, hs.2.2]
  exact sim_run h _ (own_scanLoop _ _ _ _) r s hs

theorem own_expect (x : Except Fail CodeTree) : Own (Huffman.expect x) := by
  match x with
  | .ok _ => exact own_ok _
  | .error (.err _) => simp [Own, Huffman.expect]
  | .error (.panic _) => simp [Own, Huffman.expect]
  | .error .diverge => simp [Own, Huffman.expect]

theorem own_fixed : Own Huffman.fixedLengthTree ∧ Own Huffman.fixedDistanceTree := ⟨own_expect _, own_expect _⟩

theorem sim_readBlock (h : Serves R S e) : Sim e (OnBits S) (readBlockOn R) readBlock := by
  rw [readBlockOn, readBlock]
  have hf := own_fixed
  generalize Huffman.fixedLengthTree = ft at hf ⊢
  generalize Huffman.fixedDistanceTree = dt at hf ⊢
  refine (sim_run h _ (BitProg.own_readPart _)).bind fun kind => ?_
  match kind with
  | 0 => exact (sim_align h).bind fun _ => (sim_readLengthPrefixed h).bind fun _ => .pure _
  | 1 =>
    exact (Sim.liftE hf.1).bind fun _ => (Sim.liftE hf.2).bind fun _ =>
      (sim_scan h _ _).bind fun _ => .pure _
  | 2 =>
    exact (sim_run h _ (BitProg.own_collect own_readCodes _)).bind fun _ => (sim_scan h _ _).bind fun _ => .pure _
  | 3 => exact Sim.liftE (by simp [Own])
  | _ + 4 => exact Sim.liftE (by simp [Own])

/-- The iterators are at the same place. -/
def OnIter (S : ρ → List UInt8 → Prop) (g : BlockIterOn ρ) (o : BlockIter) : Prop :=
  OnBits S g.inner o.inner ∧ g.ended = o.ended

theorem sim_next (h : Serves R S e) {g : BlockIterOn ρ} {o : BlockIter} (ho : OnIter S g o) :
    match o.next with
    | (none, o') => ∃ g', g.next R = (none, g') ∧ OnIter S g' o'
    | (some (.ok b), o') => ∃ g', g.next R = (some (.ok b), g') ∧ OnIter S g' o'
    | (some (.error x), _) => ∃ g', g.next R = (some (.error (relabel e x)), g') := by
  obtain ⟨h1, h2⟩ := ho
  unfold BlockIter.next BlockIterOn.next
  rw [h2]
  by_cases hend : o.ended = true
  · rw [if_pos hend, if_pos hend]
    have ha := sim_align h _ _ h1
    cases hx : BitReader.align o.inner with
    | ok _ s' =>
      rw [hx] at ha
      obtain ⟨r', ha, hs⟩ := ha
      rw [ha]
      exact ⟨_, rfl, hs, rfl⟩
    | error x s' =>
      rw [hx] at ha
      obtain ⟨r', ha⟩ := ha
      rw [ha]
      exact ⟨_, rfl⟩
  · rw [if_neg hend, if_neg hend]
    have hb := sim_readBit h _ _ h1
    cases hx : BitReader.readBit o.inner with
    | error x s' =>
      rw [hx] at hb
      obtain ⟨r', hb⟩ := hb
      rw [hb]
      exact ⟨_, rfl⟩
    | ok b s' =>
      rw [hx] at hb
      obtain ⟨r', hb, hs⟩ := hb
      rw [hb]
      dsimp only
      have hc := sim_readBlock h _ _ hs
      cases hy : readBlock s' with
      | error x s2 =>
        rw [hy] at hc
        obtain ⟨r2, hc⟩ := hc
        rw [hc]
        exact ⟨_, rfl⟩
      | ok blk s2 =>
        rw [hy] at hc
        obtain ⟨r2, hc, hs2⟩ := hc
        rw [hc]
        exact ⟨_, rfl, hs2, rfl⟩

/-! ### The gzip header -/

theorem readExact_one (b : UInt8) (bs : List UInt8) : readExact 1 (b :: bs) = .ok [b] bs := by simp [readExact]

theorem sim_nullTerminated (h : Serves R S e) :
    Sim e S (Gzip.nullTerminatedOn R) Gzip.readNullTerminated := by
  have key : ∀ (s : List UInt8) (r : ρ) (fuel : Nat) (into : List UInt8), S r s → s.length < fuel →
      match Gzip.readNullTerminated s with
      | .ok a s' => ∃ r', Gzip.readNullTerminatedOn R fuel into r = .ok (into ++ a) r' ∧ S r' s'
      | .error x _ => ∃ r', Gzip.readNullTerminatedOn R fuel into r = .error (relabel e x) r' := by
    intro s
    induction s with
    | nil =>
      intro r fuel into hs hf
      obtain ⟨fuel, rfl⟩ : ∃ k, fuel = k + 1 := ⟨fuel - 1, by omega⟩
      obtain ⟨r', hr⟩ := h.short (n := 1) hs (by simp)
      simp only [Gzip.readNullTerminated]
      rw [relabel_eof, Gzip.readNullTerminatedOn]
      exact ⟨r', ES.bind_err hr⟩
    | cons b s ih =>
      intro r fuel into hs hf
      obtain ⟨fuel, rfl⟩ : ∃ k, fuel = k + 1 := ⟨fuel - 1, by omega⟩
      obtain ⟨r', hr, hs'⟩ := h.exact (n := 1) hs (by simp)
      simp only [Gzip.readNullTerminated]
      rw [Gzip.readNullTerminatedOn, ES.bind_ok hr]
      rw [show index (List.take 1 (b :: s)) 0 = .ok b from rfl, ES.liftE_bind_ok]
      by_cases h0 : 0 = b
      · rw [if_pos (by simpa using h0), if_pos (by simpa using h0)]
        exact ⟨r', rfl, hs'⟩
      · rw [if_neg (by simpa using h0), if_neg (by simpa using h0)]
        have hi := ih r' fuel (into ++ [b]) hs' (by simp only [List.length_cons] at hf; omega)
        cases hx : Gzip.readNullTerminated s with
        | ok a s' =>
          rw [hx] at hi
          obtain ⟨r2, hi, hs2⟩ := hi
          exact ⟨r2, by rw [hi]; simp, hs2⟩
        | error x s' =>
          rw [hx] at hi
          exact hi
  intro r s hs
  have := key s r (R.size r + 1) [] hs (by rw [h.size hs]; omega)
  unfold Gzip.nullTerminatedOn
  cases hx : Gzip.readNullTerminated s with
  | ok a s' =>
    rw [hx] at this
    simpa using this
  | error x s' =>
    rw [hx] at this
    exact this

theorem sim_optional {c : Bool} {g : EStateM Fail ρ (List UInt8)} {o : EStateM Fail (List UInt8) (List UInt8)}
    (h : Sim e S g o) : Sim e S (Gzip.optionalOn c g) (Gzip.optional c o) := by
  unfold Gzip.optionalOn Gzip.optional
  exact Sim.ite h (.pure _)

theorem sim_readExtra (h : Serves R S e) : Sim e S (Gzip.readExtraOn R) Gzip.readExtra := by
  rw [Gzip.readExtraOn, Gzip.readExtra]
  refine (sim_readExact h 2).bind fun buf => (Sim.liftE (own_index _ _)).bind fun _ =>
    (Sim.liftE (own_index _ _)).bind fun _ => (sim_readExact h _).bind fun _ => .pure _

theorem sim_discardHeader (h : Serves R S e) : Sim e S (Gzip.discardHeaderOn R) Gzip.discardHeader := by
  rw [Gzip.discardHeaderOn, Gzip.discardHeader]
  refine (sim_readExact h 10).bind fun header => ?_
  refine (Sim.liftE (own_index _ _)).bind fun _ => (Sim.liftE (own_index _ _)).bind fun _ => ?_
  refine (Sim.liftE (own_ensure (by simp))).bind fun _ => (Sim.liftE (own_index _ _)).bind fun _ => ?_
  refine (Sim.liftE (own_ensure (by simp))).bind fun _ => (Sim.liftE (own_index _ _)).bind fun _ => ?_
  refine (Sim.liftE (own_ensure (by simp))).bind fun _ => ?_
  refine (sim_optional (sim_readExtra h)).bind fun _ => (sim_optional (sim_nullTerminated h)).bind fun _ => ?_
  exact (sim_optional (sim_nullTerminated h)).bind fun _ => (sim_optional (sim_readExact h 2)).bind fun _ => .pure _

/-! ### The tools -/

/-- The outcome with the error `e` in place of the end of the input. -/
def withEnd {α : Type} (e : Fail) : Except Fail α → Except Fail α
  | .ok a => .ok a
  | .error x => .error (relabel e x)

theorem onIter_parse {r : ρ} {bytes : List UInt8} (hs : S r bytes) :
    OnIter S (parseDeflateOn r) (parseDeflate bytes) := ⟨⟨hs, rfl, rfl⟩, rfl⟩

end

/-! ### Writing -/

/-- An operation none of whose errors is the end of the input. -/
def OwnS {σ α : Type} (x : EStateM Fail σ α) : Prop := ∀ e, Sim e Eq x x

namespace OwnS

variable {σ α β : Type}

theorem bind {x : EStateM Fail σ α} {f : α → EStateM Fail σ β} (hx : OwnS x) (hf : ∀ a, OwnS (f a)) :
    OwnS (x >>= f) := fun e => (hx e).bind fun a => hf a e

theorem pure (a : α) : OwnS (Pure.pure a : EStateM Fail σ α) := fun _ => .pure a
theorem liftE {x : Except Fail α} (h : Own x) : OwnS (Rezip.liftE x : EStateM Fail σ α) := fun _ => .liftE h
theorem get : OwnS (MonadState.get : EStateM Fail σ σ) := fun _ r s h => ⟨r, by rw [h]; rfl, h⟩

theorem of {x : EStateM Fail σ α} (h : ∀ s s', x s ≠ .error (.err .eof) s') : OwnS x := by
  rintro e r s rfl
  cases hx : x r with
  | ok a s' => exact ⟨s', rfl, rfl⟩
  | error y s' => exact ⟨s', by rw [relabel_ne (by intro hy; rw [hy] at hx; exact h _ _ hx)]⟩

theorem ne {x : EStateM Fail σ α} (h : OwnS x) {s s' : σ} {y : Fail} (hx : x s = .error y s') : y ≠ .err .eof := by
  intro hy
  have := h .diverge s s rfl
  rw [hx, hy] at this
  obtain ⟨r', hr⟩ := this
  rw [relabel_eof] at hr
  cases hr

end OwnS

theorem own_push (b : CircularBuffer) (x : UInt8) : Own (b.push x) := by
  unfold CircularBuffer.push
  refine (own_indexSet _ _ _).bind fun data => ?_
  dsimp only
  split
  · split
    · simp [Own]
    · exact own_pure _
  · exact own_pure _

theorem own_extend (b : CircularBuffer) (xs : List UInt8) : Own (b.extend xs) := by
  induction xs generalizing b with
  | nil => exact own_pure _
  | cons x xs ih => exact (own_push b x).bind fun b => ih b

theorem ownS_write (buf : List UInt8) : OwnS (DecState.write buf) := by
  refine .of fun s s' h => ?_
  unfold DecState.write writeAll at h
  split at h
  · cases h
  · rename_i e _ he
    split at he
    · cases he
    · split at he
      · cases he
      · cases he
        cases h

theorem ownS_push (b : UInt8) : OwnS (DecState.push b) := by
  refine .of fun s s' h => ?_
  unfold DecState.push at h
  split at h
  · cases h
  · rename_i e he
    cases h
    exact Fail.ne_eof (own_push _ _ _ he) rfl

theorem ownS_extend (xs : List UInt8) : OwnS (DecState.extend xs) := by
  refine .of fun s s' h => ?_
  unfold DecState.extend at h
  split at h
  · cases h
  · rename_i e he
    cases h
    exact Fail.ne_eof (own_extend _ _ _ he) rfl

theorem ownS_copy (dist len : Nat) : OwnS (DecState.copy dist len) := by
  have hloop : ∀ n i, OwnS (DecState.copyLoop n i) := by
    intro n
    induction n with
    | zero => intro i; exact .pure _
    | succ n ih =>
      intro i
      exact OwnS.get.bind fun s => (OwnS.liftE (own_index _ _)).bind fun b => (ownS_write _).bind fun _ =>
        (ownS_push _).bind fun _ => ih _
  exact OwnS.get.bind fun s => (OwnS.liftE (own_ensure (by simp))).bind fun _ => hloop _ _

theorem ownS_block (b : Block) : OwnS (Serialise.decompressedBlock b) := by
  have hcodes : ∀ cs, OwnS (Serialise.decompressedCodes cs) := by
    intro cs
    induction cs with
    | nil => exact .pure _
    | cons c cs ih =>
      refine OwnS.bind ?_ fun _ => ih
      cases c with
      | literal x => exact (ownS_push _).bind fun _ => ownS_write _
      | reference r => exact ownS_copy _ _
  cases b with
  | uncompressed data => exact (ownS_extend _).bind fun _ => ownS_write _
  | fixedHuffman cs => exact hcodes cs
  | dynamicHuffman _ cs => exact hcodes cs

theorem own_toBits (v : BitVector) : Own v.toBits := by
  have hget : ∀ i, Own (v.get i) := fun i => (own_assert _).bind fun _ => (own_index _ _).bind fun _ => own_pure _
  have : ∀ fuel pos, Own (StackIterator.drain fuel { inner := v, pos := pos }) := by
    intro fuel
    induction fuel with
    | zero => intro pos; simp [Own, StackIterator.drain]
    | succ fuel ih =>
      intro pos
      unfold StackIterator.drain StackIterator.next
      dsimp only
      by_cases hp : pos ≥ v.len
      · rw [if_pos hp]
        by_cases hq : (pos == v.len) = true
        · rw [if_pos hq]; exact own_ok _
        · rw [if_neg hq]; simp [Own]
      · rw [if_neg hp]
        have := hget pos
        cases hx : v.get pos with
        | ok b => exact (ih _).bind fun _ => own_pure _
        | error e => intro y h; cases h; exact this _ hx
  exact this _ _

theorem own_blockLines (dbg : UInt8 → List Char) (id : Nat) (b : Block) : Own (Dump.blockLines dbg id b) := by
  cases b with
  | uncompressed data => exact own_pure _
  | fixedHuffman cs => exact own_pure _
  | dynamicHuffman t cs => exact Own.bind ((own_toBits t).bind fun _ => own_pure _) fun _ => own_pure _

/-! ### The tools -/

section

variable {ρ : Type} {R : Reader ρ} {S : ρ → List UInt8 → Prop} {e : Fail}

theorem sim_catLoop (h : Serves R S e) (fuel : Nat) {g : BlockIterOn ρ} {o : BlockIter} (ho : OnIter S g o)
    (st : DecState) : Cat.loopOn R fuel g st =
      (withEnd e (Cat.loop fuel o st).1, (Cat.loop fuel o st).2.1) := by
  induction fuel generalizing g o st with
  | zero => rw [Cat.loopOn, Cat.loop, withEnd, relabel_ne (by simp)]
  | succ fuel ih =>
    have hn := sim_next h ho
    rw [Cat.loopOn, Cat.loop]
    match hx : o.next with
    | (none, o') =>
      rw [hx] at hn
      obtain ⟨g', hn, _⟩ := hn
      rw [hn]
      rfl
    | (some (.error x), o') =>
      rw [hx] at hn
      obtain ⟨g', hn⟩ := hn
      rw [hn]
      rfl
    | (some (.ok b), o') =>
      rw [hx] at hn
      obtain ⟨g', hn, ho'⟩ := hn
      rw [hn]
      dsimp only
      cases hd : Serialise.decompressedBlock b st with
      | ok u st' => exact ih ho' st'
      | error x st' =>
        dsimp only
        rw [withEnd, relabel_ne ((ownS_block b).ne hd)]

theorem sim_cat (h : Serves R S e) {r : ρ} {bytes : List UInt8} (hs : S r bytes) (stdout : Sink) :
    Cat.runOn R r stdout = (withEnd e (Cat.run bytes stdout).1, (Cat.run bytes stdout).2) := by
  have hh := sim_discardHeader h r bytes hs
  unfold Cat.runOn Cat.run
  cases hx : Gzip.discardHeader bytes with
  | error x s' =>
    rw [hx] at hh
    obtain ⟨r', hh⟩ := hh
    rw [hh]
    rfl
  | ok a s' =>
    rw [hx] at hh
    obtain ⟨r', hh, hs'⟩ := hh
    rw [hh]
    dsimp only
    have hnew : Own CircularBuffer.new := (own_assert _).bind fun _ => own_pure _
    generalize hd : CircularBuffer.new = nd at hnew
    cases nd with
    | error x => dsimp only; rw [withEnd, relabel_ne (Fail.ne_eof (hnew _ rfl))]
    | ok dict =>
      dsimp only
      rw [h.size hs', sim_catLoop h _ (onIter_parse hs')]

theorem sim_dumpLoop (h : Serves R S e) (dbg : UInt8 → List Char) (fuel : Nat) {g : BlockIterOn ρ} {o : BlockIter}
    (ho : OnIter S g o) (id : Nat) : Dump.loopOn R dbg fuel g id =
      (withEnd e (Dump.loop dbg fuel o id).1, (Dump.loop dbg fuel o id).2) := by
  induction fuel generalizing g o id with
  | zero => rw [Dump.loopOn, Dump.loop, withEnd, relabel_ne (by simp)]
  | succ fuel ih =>
    have hn := sim_next h ho
    rw [Dump.loopOn, Dump.loop]
    match hx : o.next with
    | (none, o') =>
      rw [hx] at hn
      obtain ⟨g', hn, _⟩ := hn
      rw [hn]
      rfl
    | (some (.error x), o') =>
      rw [hx] at hn
      obtain ⟨g', hn⟩ := hn
      rw [hn]
      rfl
    | (some (.ok b), o') =>
      rw [hx] at hn
      obtain ⟨g', hn, ho'⟩ := hn
      rw [hn]
      dsimp only
      cases hd : Dump.blockLines dbg id b with
      | ok lines => dsimp only; rw [ih ho']
      | error x =>
        dsimp only
        rw [withEnd, relabel_ne (Fail.ne_eof (own_blockLines dbg id b _ hd))]

theorem sim_dump (h : Serves R S e) (dbg : UInt8 → List Char) {r : ρ} {bytes : List UInt8} (hs : S r bytes) :
    Dump.runOn R dbg r = (withEnd e (Dump.run dbg bytes).1, (Dump.run dbg bytes).2) := by
  have hh := sim_discardHeader h r bytes hs
  unfold Dump.runOn Dump.run
  cases hx : Gzip.discardHeader bytes with
  | error x s' =>
    rw [hx] at hh
    obtain ⟨r', hh⟩ := hh
    rw [hh]
    rfl
  | ok a s' =>
    rw [hx] at hh
    obtain ⟨r', hh, hs'⟩ := hh
    rw [hh]
    dsimp only
    rw [h.size hs', sim_dumpLoop h dbg _ (onIter_parse hs')]

theorem ref_ok {dist run : Nat} (h1 : 1 ≤ dist) (h2 : dist ≤ 32768) (h3 : 3 ≤ run) (h4 : run ≤ 258) :
    ∃ r, Ref.new dist run = .ok r := by
  unfold Ref.new
  simp [assert, h1, h2, h3, h4, Ex.ok_bind]

theorem traceLoop_eq (fuel : Nat) (b0 b1 : UInt8) (rest : List UInt8) :
    SerialiseTrace.readLoop (fuel + 1) (b0 :: b1 :: rest) =
      if b0.toNat + 256 * b1.toNat = 0 then do
        let out ← SerialiseTrace.readLoop fuel rest
        pure (.actuallyLiteral :: out)
      else if b0.toNat + 256 * b1.toNat ≤ 32768 then
        match rest with
        | [] => .error (.err .eof)
        | runMinus3 :: rest => do
          let r ← Ref.new (b0.toNat + 256 * b1.toNat) (runMinus3.toNat + 3)
          let out ← SerialiseTrace.readLoop fuel rest
          pure (.actually r :: out)
      else (do
        let out ← SerialiseTrace.readLoop fuel rest
        pure (List.replicate (b0.toNat + 256 * b1.toNat - 32768) .correct ++ out)) := by
  rw [SerialiseTrace.readLoop.eq_def]
  rfl

theorem sim_traceLoop (h : Serves R S e) (fuel : Nat) (ret : List Trace) {r : ρ} {bytes : List UInt8} (hs : S r bytes)
    (hfuel : bytes.length < fuel) :
    if e = .err .eof then
      match SerialiseTrace.readLoop fuel bytes with
      | .ok l => ∃ r', SerialiseTrace.readLoopOn R fuel ret r = .ok (ret ++ l) r'
      | .error x => ∃ r', SerialiseTrace.readLoopOn R fuel ret r = .error x r'
    else ∃ r', SerialiseTrace.readLoopOn R fuel ret r = .error e r' := by
  induction fuel generalizing ret r bytes with
  | zero => omega
  | succ fuel ih =>
    rw [SerialiseTrace.readLoopOn]
    dsimp only
    by_cases hlen : 2 ≤ bytes.length
    · match bytes, hlen with
      | b0 :: b1 :: rest, _ =>
        obtain ⟨r1, h1, hs1⟩ := h.exact hs (n := 2) (by simp)
        rw [h1]
        simp only [List.length_cons] at hfuel
        have hb0 : index (List.take 2 (b0 :: b1 :: rest)) 0 = .ok b0 := rfl
        have hb1 : index (List.take 2 (b0 :: b1 :: rest)) 1 = .ok b1 := rfl
        dsimp only
        rw [hb0, hb1, ES.liftE_bind_ok, ES.liftE_bind_ok]
        rw [traceLoop_eq]
        have hs1 : S r1 rest := hs1
        by_cases hz : b0.toNat + 256 * b1.toNat = 0
        · rw [if_pos hz, if_pos hz]
          have := ih (ret ++ [.actuallyLiteral]) hs1 (by omega)
          split
          · rename_i he
            rw [if_pos he] at this
            cases hx : SerialiseTrace.readLoop fuel rest with
            | ok l => rw [hx] at this; simpa [Ex.ok_bind] using this
            | error x => rw [hx] at this; exact this
          · rename_i he; rw [if_neg he] at this; exact this
        · rw [if_neg hz, if_neg hz]
          by_cases hr : b0.toNat + 256 * b1.toNat ≤ 32768
          · rw [if_pos hr, if_pos hr]
            match rest, hs1 with
            | [], hs1 =>
              obtain ⟨r2, h2⟩ := h.short hs1 (n := 1) (by simp)
              rw [ES.bind_err h2]
              split
              · rename_i he; exact ⟨_, by rw [he]⟩
              · exact ⟨_, rfl⟩
            | b2 :: rest, hs1 =>
              obtain ⟨r2, h2, hs2⟩ := h.exact hs1 (n := 1) (by simp)
              rw [ES.bind_ok h2]
              have hb2 : index (List.take 1 (b2 :: rest)) 0 = .ok b2 := rfl
              have := b2.toNat_lt
              obtain ⟨rf, hrf⟩ := ref_ok (dist := b0.toNat + 256 * b1.toNat) (run := b2.toNat + 3)
                (by omega) hr (by omega) (by omega)
              rw [hb2, ES.liftE_bind_ok, hrf, ES.liftE_bind_ok]
              simp only [List.length_cons] at hfuel
              have := ih (ret ++ [.actually rf]) (bytes := rest) hs2 (by omega)
              dsimp only
              rw [hrf, Ex.ok_bind]
              split
              · rename_i he
                rw [if_pos he] at this
                cases hx : SerialiseTrace.readLoop fuel rest with
                | ok l => rw [hx] at this; simpa [Ex.ok_bind] using this
                | error x => rw [hx] at this; exact this
              · rename_i he; rw [if_neg he] at this; exact this
          · rw [if_neg hr, if_neg hr]
            have := ih (ret ++ List.replicate (b0.toNat + 256 * b1.toNat - 32768) .correct) hs1 (by omega)
            split
            · rename_i he
              rw [if_pos he] at this
              cases hx : SerialiseTrace.readLoop fuel rest with
              | ok l => rw [hx] at this; simpa [Ex.ok_bind] using this
              | error x => rw [hx] at this; exact this
            · rename_i he; rw [if_neg he] at this; exact this
    · obtain ⟨r1, h1⟩ := h.short hs (n := 2) (by omega)
      rw [h1]
      have hread : SerialiseTrace.readLoop (fuel + 1) bytes = .ok [] := by
        match bytes, hlen with
        | [], _ => rfl
        | [b], _ => rfl
        | _ :: _ :: _, hlen => simp at hlen
      rw [hread]
      by_cases he : e = .err .eof
      · rw [if_pos he, he]
        exact ⟨r1, by simp⟩
      · rw [if_neg he]
        refine ⟨r1, ?_⟩
        split
        · rename_i h; cases h; exact absurd rfl he
        · rename_i h; cases h; rfl
        · rename_i h; cases h

theorem sim_trace (h : Serves R S e) {r : ρ} {bytes : List UInt8} (hs : S r bytes) :
    SerialiseTrace.readOn R r = if e = .err .eof then SerialiseTrace.read bytes else .error e := by
  have := sim_traceLoop h (bytes.length + 1) [] hs (by omega)
  unfold SerialiseTrace.readOn SerialiseTrace.read
  rw [h.size hs]
  by_cases he : e = .err .eof
  · rw [if_pos he] at this ⊢
    cases hx : SerialiseTrace.readLoop (bytes.length + 1) bytes with
    | ok l =>
      rw [hx] at this
      obtain ⟨r', this⟩ := this
      rw [this]
      rfl
    | error x =>
      rw [hx] at this
      obtain ⟨r', this⟩ := this
      rw [this]
  · rw [if_neg he] at this ⊢
    obtain ⟨r', this⟩ := this
    rw [this]

end

/-! ### A reader that delivers its bytes in pieces -/

section

variable {ρ : Type} (read : Nat → ρ → Got × ρ)

theorem loop_zero (fuel : Nat) (buf : List UInt8) (s : ρ) : readExactLoop read (fuel + 1) 0 buf s = .ok buf s := by
  unfold readExactLoop
  rfl

theorem loop_succ (fuel n : Nat) (buf : List UInt8) (s : ρ) : readExactLoop read (fuel + 1) (n + 1) buf s =
    match read (n + 1) s with
    | (.bytes [], s) => .error (.err .eof) s
    | (.bytes (b :: bs), s) => readExactLoop read fuel (n + 1 - (b :: bs).length) (buf ++ b :: bs) s
    | (.interrupted, s) => readExactLoop read fuel (n + 1) buf s
    | (.failed e, s) => .error (.err e) s := by
  conv => lhs; unfold readExactLoop
  rfl

end

namespace Script

theorem loop_spec (fuel n : Nat) (buf : List UInt8) (s : Script) (hfuel : s.length + 2 ≤ fuel) :
    (n ≤ s.bytes.length → ∃ s', readExactLoop read fuel n buf s = .ok (buf ++ s.bytes.take n) s' ∧
      s'.bytes = s.bytes.drop n ∧ s'.final = s.final) ∧
    (s.bytes.length < n → ∃ s', readExactLoop read fuel n buf s = .error s.final s') := by
  induction s generalizing fuel n buf with
  | nil =>
    obtain ⟨fuel, rfl⟩ : ∃ f, fuel = f + 1 := ⟨fuel - 1, by simp at hfuel; omega⟩
    cases n with
    | zero =>
      rw [loop_zero]
      exact ⟨fun _ => ⟨[], by simp, by simp [bytes], rfl⟩, fun h => by omega⟩
    | succ n => exact ⟨fun h => by simp [bytes] at h, fun _ => ⟨[], by rw [loop_succ]; rfl⟩⟩
  | cons ev s ih =>
    obtain ⟨fuel, rfl⟩ : ∃ f, fuel = f + 1 := ⟨fuel - 1, by simp at hfuel; omega⟩
    simp only [List.length_cons] at hfuel
    cases n with
    | zero =>
      rw [loop_zero]
      exact ⟨fun _ => ⟨ev :: s, by simp, by simp, rfl⟩, fun h => by omega⟩
    | succ m =>
      rw [loop_succ]
      cases ev with
      | interrupted => exact ih fuel (m + 1) buf (by omega)
      | failure x => exact ⟨fun h => by simp [bytes] at h, fun _ => ⟨s, rfl⟩⟩
      | data b bs =>
        have hb : bytes (.data b bs :: s) = b :: bs ++ bytes s := rfl
        have hf : final (.data b bs :: s) = final s := rfl
        rw [hb, hf]
        cases hd : (b :: bs).drop (m + 1) with
        | nil =>
          have hlen : bs.length ≤ m := by simpa using hd
          have hr : read (m + 1) (.data b bs :: s) = (.bytes (b :: bs), s) := by rw [read, hd]
          rw [hr]
          have := ih fuel (m + 1 - (b :: bs).length) (buf ++ b :: bs) (by omega)
          dsimp only
          have h1 : (b :: bs).length = bs.length + 1 := rfl
          refine ⟨fun h => ?_, fun h => ?_⟩
          · obtain ⟨s', e1, e2, e3⟩ := this.1 (by simp at h ⊢; omega)
            refine ⟨s', ?_, ?_, e3⟩
            · rw [e1, List.take_append, List.take_of_length_le (l := b :: bs) (by omega), List.append_assoc]
            · rw [e2, List.drop_append, hd, List.nil_append]
          · exact this.2 (by simp at h ⊢; omega)
        | cons c cs =>
          have hlen : m + 1 < (b :: bs).length := by
            have : ((b :: bs).drop (m + 1)).length = cs.length + 1 := by rw [hd]; rfl
            rw [List.length_drop] at this
            omega
          have hr : read (m + 1) (.data b bs :: s) = (.bytes ((b :: bs).take (m + 1)), .data c cs :: s) := by
            rw [read, hd]
          rw [hr]
          obtain ⟨fuel, rfl⟩ : ∃ f, fuel = f + 1 := ⟨fuel - 1, by omega⟩
          have htake : (b :: bs).take (m + 1) = b :: bs.take m := rfl
          have hl : (b :: bs.take m).length = m + 1 := by simp at hlen ⊢; omega
          rw [htake]
          dsimp only
          rw [hl, Nat.sub_self, loop_zero]
          refine ⟨fun h => ⟨.data c cs :: s, ?_, ?_, rfl⟩, fun h => ?_⟩
          · rw [List.take_append_of_le_length (by omega), htake]
          · rw [List.drop_append_of_le_length (by omega), hd]; rfl
          · simp at h hlen; omega

theorem serves (e : Fail) : Serves reader (fun s bytes => s.bytes = bytes ∧ s.final = e) e where
  exact := by
    rintro s _ n ⟨rfl, rfl⟩ hn
    obtain ⟨s', h1, h2, h3⟩ := (loop_spec (s.length + 2) n [] s (Nat.le_refl _)).1 hn
    exact ⟨s', h1, h2, h3⟩
  short := by
    rintro s _ n ⟨rfl, rfl⟩ hn
    exact (loop_spec (s.length + 2) n [] s (Nat.le_refl _)).2 hn
  size := by
    rintro s _ ⟨rfl, _⟩
    rfl

end Script

/-! ### Reading through a hash -/

namespace Filter

variable {H : Type}

theorem loop_eq {ρ : Type} (h : Hasher H) (hi : ∀ s a b, h.update (h.update s a) b = h.update s (a ++ b))
    (read : Nat → ρ → Got × ρ) (fuel n : Nat) (buf : List UInt8) (r : ρ) (start : H) (p : List UInt8) :
    match readExactLoop read fuel n buf r with
    | .ok out r' => ∃ got, out = buf ++ got ∧ readExactLoop (readOn h read) fuel n buf ⟨r, h.update start p⟩ =
        .ok out ⟨r', h.update start (p ++ got)⟩
    | .error e r' => ∃ hash, readExactLoop (readOn h read) fuel n buf ⟨r, h.update start p⟩ = .error e ⟨r', hash⟩ := by
  induction fuel generalizing n buf r p with
  | zero => exact ⟨_, rfl⟩
  | succ fuel ih =>
    cases n with
    | zero =>
      rw [loop_zero, loop_zero]
      exact ⟨[], by simp, by simp⟩
    | succ n =>
      rw [loop_succ, loop_succ]
      unfold readOn
      dsimp only
      match hr : read (n + 1) r with
      | (.bytes [], r') => exact ⟨_, rfl⟩
      | (.interrupted, r') => exact ih (n + 1) buf r' p
      | (.failed x, r') => exact ⟨_, rfl⟩
      | (.bytes (b :: bs), r') =>
        dsimp only
        have := ih (n + 1 - (b :: bs).length) (buf ++ b :: bs) r' (p ++ b :: bs)
        rw [hi]
        cases hx : readExactLoop read fuel (n + 1 - (b :: bs).length) (buf ++ b :: bs) r' with
        | error e r2 => rw [hx] at this; exact this
        | ok out r2 =>
          rw [hx] at this
          obtain ⟨got, h1, h2⟩ := this
          exact ⟨b :: bs ++ got, by rw [h1, List.append_assoc], by rw [← List.append_assoc]; exact h2⟩

/-- The reader has `bytes` before it, and the hash is that of what came before them in `total`. -/
def At (h : Hasher H) (total : List UInt8) (e : Fail) (f : State Script H) (bytes : List UInt8) : Prop :=
  f.inner.bytes = bytes ∧ f.inner.final = e ∧ ∃ p, p ++ bytes = total ∧ f.hash = h.update h.init p

theorem serves (h : Hasher H) (hi : ∀ s a b, h.update (h.update s a) b = h.update s (a ++ b))
    (total : List UInt8) (e : Fail) : Serves (reader h) (At h total e) e where
  exact := by
    rintro ⟨s, hash⟩ _ n ⟨rfl, rfl, p, hp, hh⟩ hn
    dsimp only at hn hh hp ⊢
    subst hh
    obtain ⟨s', h1, h2, h3⟩ := (Script.loop_spec (s.length + 2) n [] s (Nat.le_refl _)).1 hn
    have := loop_eq h hi Script.read (s.length + 2) n [] s h.init p
    rw [h1] at this
    obtain ⟨got, h4, h5⟩ := this
    rw [List.nil_append, List.nil_append] at h4
    rw [List.nil_append] at h5
    refine ⟨_, h5, h2, h3, p ++ got, ?_, rfl⟩
    rw [List.append_assoc, ← h4, List.take_append_drop, hp]
  short := by
    rintro ⟨s, hash⟩ _ n ⟨rfl, rfl, p, hp, hh⟩ hn
    dsimp only at hn hh hp ⊢
    subst hh
    obtain ⟨s', h1⟩ := (Script.loop_spec (s.length + 2) n [] s (Nat.le_refl _)).2 hn
    have := loop_eq h hi Script.read (s.length + 2) n [] s h.init p
    rw [h1] at this
    obtain ⟨hash, h5⟩ := this
    exact ⟨_, h5⟩
  size := by
    rintro f _ ⟨rfl, _⟩
    rfl

end Filter

/-! ### All blocks -/

theorem sim_collectLoop {ρ : Type} {R : Reader ρ} {S : ρ → List UInt8 → Prop} {e : Fail} (h : Serves R S e)
    (fuel : Nat) {g : BlockIterOn ρ} {o : BlockIter} (ho : OnIter S g o) (acc : List Block) :
    (collectLoopOn R fuel g acc).1 = withEnd e (collectLoop fuel o acc).1 ∧
    (collectLoopOn R fuel g acc).2.1 = (collectLoop fuel o acc).2.1 ∧
    ((collectLoop fuel o acc).1 = .ok () →
      OnIter S (collectLoopOn R fuel g acc).2.2 (collectLoop fuel o acc).2.2) := by
  induction fuel generalizing g o acc with
  | zero =>
    rw [collectLoopOn, collectLoop, withEnd, relabel_ne (by simp)]
    exact ⟨rfl, rfl, fun h => by cases h⟩
  | succ fuel ih =>
    have hn := sim_next h ho
    rw [collectLoopOn, collectLoop]
    match hx : o.next with
    | (none, o') =>
      rw [hx] at hn
      obtain ⟨g', hn, h'⟩ := hn
      rw [hn]
      exact ⟨rfl, rfl, fun _ => h'⟩
    | (some (.error x), o') =>
      rw [hx] at hn
      obtain ⟨g', hn⟩ := hn
      rw [hn]
      exact ⟨rfl, rfl, fun h => by cases h⟩
    | (some (.ok b), o') =>
      rw [hx] at hn
      obtain ⟨g', hn, ho'⟩ := hn
      rw [hn]
      exact ih ho' (acc ++ [b])

theorem sim_collect {ρ : Type} {R : Reader ρ} {S : ρ → List UInt8 → Prop} {e : Fail} (h : Serves R S e)
    {r : ρ} {bytes : List UInt8} (hs : S r bytes) {blocks : List Block} {rest : List UInt8}
    (hp : parseAll bytes = .ok (blocks, rest)) :
    ∃ it, collectOn R r = (.ok (), blocks, it) ∧ S it.inner.inner rest := by
  obtain ⟨h1, h2, h3⟩ := sim_collectLoop h (8 * bytes.length + 2) (onIter_parse hs) []
  unfold collectOn
  rw [h.size hs]
  unfold parseAll collect at hp
  rcases hc : collectLoop (8 * bytes.length + 2) (parseDeflate bytes) [] with ⟨x, bl, o⟩
  rw [hc] at hp h1 h2 h3
  cases x with
  | error x => cases hp
  | ok u =>
    simp only [Except.ok.injEq, Prod.mk.injEq] at hp
    obtain ⟨rfl, rfl⟩ := hp
    have h3 := h3 rfl
    refine ⟨(collectLoopOn R (8 * bytes.length + 2) (parseDeflateOn r) []).2.2, ?_, h3.1.1⟩
    exact Prod.ext h1 (Prod.ext h2 rfl)

end Rezip
