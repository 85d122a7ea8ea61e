import Verif.Props.Serialise

/-!
# C79: compressing to an output that fails
-/

namespace Rezip

open Rezip.Spec Serialise

/-- The same program on an output that never fails and on one that accepts `r` more bytes: if everything fits
the outcome is the same; otherwise it fails with the output's error, after writing exactly the bytes that
fit. -/
def Steady {α : Type} (p : EStateM Fail BitWriter α) : Prop :=
  ∀ (c : BitVector) (o : List UInt8), ∃ x : List UInt8,
    match p ⟨⟨o, none⟩, c⟩ with
    | .ok a w => w.inner = ⟨o ++ x, none⟩ ∧ ∀ r,
        (x.length ≤ r → p ⟨⟨o, some r⟩, c⟩ = .ok a ⟨⟨o ++ x, some (r - x.length)⟩, w.current⟩) ∧
        (r < x.length → ∃ w', p ⟨⟨o, some r⟩, c⟩ = .error (.err .sink) w' ∧ w'.inner.out = o ++ x.take r)
    | .error e w => w.inner = ⟨o ++ x, none⟩ ∧ ∀ r,
        (x.length ≤ r → p ⟨⟨o, some r⟩, c⟩ = .error e ⟨⟨o ++ x, some (r - x.length)⟩, w.current⟩) ∧
        (r < x.length → ∃ w', p ⟨⟨o, some r⟩, c⟩ = .error (.err .sink) w' ∧ w'.inner.out = o ++ x.take r)

namespace Steady

variable {α β : Type}

theorem pure (a : α) : Steady (pure a : EStateM Fail BitWriter α) := by
  intro c o
  refine ⟨[], ?_⟩
  rw [ES.pure_apply]
  exact ⟨by simp, fun r => ⟨fun _ => by simp, fun h => by simp at h⟩⟩

theorem lift (x : Except Fail α) : Steady (liftE x : EStateM Fail BitWriter α) := by
  intro c o
  refine ⟨[], ?_⟩
  cases x with
  | ok a =>
    rw [ES.liftE_ok]
    exact ⟨by simp, fun r => ⟨fun _ => by simp, fun h => by simp at h⟩⟩
  | error e =>
    rw [ES.liftE_error]
    exact ⟨by simp, fun r => ⟨fun _ => by simp, fun h => by simp at h⟩⟩

theorem bind {p : EStateM Fail BitWriter α} {f : α → EStateM Fail BitWriter β} (hp : Steady p)
    (hf : ∀ a, Steady (f a)) : Steady (p >>= f) := by
  intro c o
  obtain ⟨x, hx⟩ := hp c o
  cases h1 : p ⟨⟨o, none⟩, c⟩ with
  | error e w =>
    rw [h1] at hx
    dsimp only at hx
    refine ⟨x, ?_⟩
    rw [ES.bind_err h1]
    refine ⟨hx.1, fun r => ⟨fun hr => ES.bind_err ((hx.2 r).1 hr), fun hr => ?_⟩⟩
    obtain ⟨w', h2, h3⟩ := (hx.2 r).2 hr
    exact ⟨w', ES.bind_err h2, h3⟩
  | ok a w =>
    rw [h1] at hx
    dsimp only at hx
    obtain ⟨hw, hx⟩ := hx
    obtain ⟨y, hy⟩ := hf a w.current (o ++ x)
    have hweq : w = ⟨⟨o ++ x, none⟩, w.current⟩ := by
      cases w; simp only at hw; rw [hw]
    refine ⟨x ++ y, ?_⟩
    rw [ES.bind_ok h1]
    rw [← hweq] at hy
    have hlong : ∀ r, r < (x ++ y).length → (∀ r', r' < y.length →
        ∃ w', f a ⟨⟨o ++ x, some r'⟩, w.current⟩ = .error (.err .sink) w' ∧
          w'.inner.out = o ++ x ++ y.take r') →
        ∃ w', (p >>= f) ⟨⟨o, some r⟩, c⟩ = .error (.err .sink) w' ∧ w'.inner.out = o ++ (x ++ y).take r := by
      intro r hr hlim
      by_cases hxr : x.length ≤ r
      · rw [ES.bind_ok ((hx r).1 hxr)]
        obtain ⟨w', h2, h3⟩ := hlim (r - x.length) (by simp at hr; omega)
        refine ⟨w', h2, ?_⟩
        rw [h3, List.take_append, List.take_of_length_le hxr, List.append_assoc]
      · obtain ⟨w', h2, h3⟩ := (hx r).2 (by omega)
        refine ⟨w', ES.bind_err h2, ?_⟩
        rw [h3, List.take_append_of_le_length (by omega)]
    cases h2 : f a w with
    | ok b w2 =>
      rw [h2] at hy
      dsimp only at hy ⊢
      refine ⟨by rw [hy.1, List.append_assoc], fun r => ⟨fun hr => ?_, fun hr =>
        hlong r hr (fun r' hr' => (hy.2 r').2 hr')⟩⟩
      rw [List.length_append] at hr
      rw [ES.bind_ok ((hx r).1 (by omega)), (hy.2 (r - x.length)).1 (by omega), List.append_assoc,
        List.length_append, Nat.sub_sub]
    | error e w2 =>
      rw [h2] at hy
      dsimp only at hy ⊢
      refine ⟨by rw [hy.1, List.append_assoc], fun r => ⟨fun hr => ?_, fun hr =>
        hlong r hr (fun r' hr' => (hy.2 r').2 hr')⟩⟩
      rw [List.length_append] at hr
      rw [ES.bind_ok ((hx r).1 (by omega)), (hy.2 (r - x.length)).1 (by omega), List.append_assoc,
        List.length_append, Nat.sub_sub]

theorem writeInner (buf : List UInt8) : Steady (BitWriter.writeInner buf) := by
  intro c o
  refine ⟨buf, ?_⟩
  simp only [BitWriter.writeInner, writeAll]
  refine ⟨trivial, fun r => ⟨fun hr => ?_, fun hr => ?_⟩⟩
  · rw [if_pos hr]
  · rw [if_neg (by omega)]
    exact ⟨_, rfl, rfl⟩

/-- A program that chooses by the pending bits, which do not depend on the output. -/
theorem current {g : BitVector → EStateM Fail BitWriter α} (hg : ∀ c, Steady (g c)) :
    Steady (fun w => g w.current w) := fun c o => hg c c o

theorem setCurrent {p : EStateM Fail BitWriter α} (hp : Steady p) (c : BitVector) :
    Steady (fun w => p { w with current := c }) := fun _ o => hp c o

theorem writeBit (bit : Bool) : Steady (BitWriter.writeBit bit) := by
  have e : BitWriter.writeBit bit = fun w => (liftE (w.current.push bit) >>= fun current =>
      (fun w => (if current.len ≥ 8 then
        (liftE (assert (8 == current.len)) >>= fun _ => liftE current.popByte >>= fun
          | (none, _) => liftE (.error (.panic .unwrap))
          | (some byte, current) => fun w => BitWriter.writeInner [byte] { w with current := current })
        else Pure.pure ()) { w with current := current } : EStateM Fail BitWriter Unit)) w := by
    funext w
    unfold BitWriter.writeBit
    rw [ES.get_bind]
    cases w.current.push bit with
    | error e => rfl
    | ok cur =>
      rw [ES.liftE_bind_ok, ES.set_bind]
      show (if cur.len ≥ 8 then _ else _ : EStateM Fail BitWriter Unit) { w with current := cur } =
        (if cur.len ≥ 8 then _ else _ : EStateM Fail BitWriter Unit) { w with current := cur }
      by_cases h8 : cur.len ≥ 8
      · rw [if_pos h8, if_pos h8]
        cases assert (8 == cur.len) with
        | error e => rfl
        | ok u =>
          cases hq : cur.popByte with
          | error e => rfl
          | ok q =>
            obtain ⟨o, v⟩ := q
            cases o with
            | none => rfl
            | some b => rfl
      · rw [if_neg h8, if_neg h8]
  rw [e]
  refine current (g := fun c => (liftE (c.push bit) >>= _)) fun c => ?_
  refine bind (lift _) fun cur => setCurrent (p := if _ then _ else _) ?_ cur
  split
  · refine bind (lift _) fun _ => bind (lift _) fun q => ?_
    obtain ⟨o, v⟩ := q
    cases o with
    | none => exact lift _
    | some b => exact setCurrent (writeInner [b]) v
  · exact pure ()

theorem writeBits (bits : List Bool) : Steady (BitWriter.writeBits bits) := by
  induction bits with
  | nil => exact pure ()
  | cons b bs ih => exact bind (writeBit b) fun _ => ih

theorem writeBitsVal (bits val : Nat) : Steady (BitWriter.writeBitsVal bits val) := by
  unfold BitWriter.writeBitsVal
  generalize 0 = i
  induction bits generalizing i with
  | zero => exact pure ()
  | succ n ih =>
    unfold BitWriter.writeBitsValLoop
    split
    · exact lift _
    · exact bind (writeBit _) fun _ => ih (i + 1)

theorem align : Steady BitWriter.align := by
  unfold BitWriter.align
  generalize 9 = fuel
  induction fuel with
  | zero => exact lift (.error .diverge)
  | succ fuel ih =>
    have e : BitWriter.alignLoop (fuel + 1) = fun w => (liftE w.current.isEmpty >>= fun e =>
        if !e then (BitWriter.writeBit false >>= fun _ => BitWriter.alignLoop fuel)
        else Pure.pure ()) w := by
      funext w
      rfl
    rw [e]
    refine current (g := fun c => liftE c.isEmpty >>= _) fun c => bind (lift _) fun b => ?_
    split
    · exact bind (writeBit _) fun _ => ih
    · exact pure ()

theorem writeVec (v : BitVector) : Steady (BitWriter.writeVec v) :=
  bind (lift _) fun _ => writeBits _

theorem writeLengthPrefixed (data : List UInt8) : Steady (BitWriter.writeLengthPrefixed data) :=
  bind align fun _ => bind (lift _) fun _ => bind (writeInner _) fun _ => bind (writeInner _) fun _ =>
    writeInner _

theorem compressedCode (lt : List (Option BitVector)) (dt : Option (List (Option BitVector))) (c : Code) :
    Steady (Serialise.compressedCode lt dt c) := by
  cases c with
  | literal b =>
    refine bind (lift _) fun o => ?_
    cases o with
    | none => exact lift _
    | some v => exact writeVec v
  | reference r =>
    refine bind ?_ fun _ => ?_
    · refine bind (lift _) fun _ => bind (lift _) fun _ => bind (writeVec _) fun _ => bind (lift _) fun o => ?_
      cases o with
      | none => exact pure ()
      | some p => exact writeBitsVal _ _
    · refine bind (lift _) fun q => ?_
      cases dt with
      | none => exact lift _
      | some t =>
        refine bind (lift _) fun _ => bind (writeVec _) fun _ => ?_
        split
        · exact writeBitsVal _ _
        · exact pure ()

theorem compressedCodes (l : CodeTree) (d : Option CodeTree) (codes : List Code) :
    Steady (Serialise.compressedCodes l d codes) := by
  refine bind (lift _) fun lt => bind (lift _) fun dt => bind (lift _) fun _ => bind ?_ fun _ =>
    bind (lift _) fun _ => writeVec _
  induction codes with
  | nil => exact pure ()
  | cons c cs ih => exact bind (compressedCode lt dt c) fun _ => ih

theorem compressedBlock (b : Block) : Steady (Serialise.compressedBlock b) := by
  cases b with
  | uncompressed data => exact bind (writeBitsVal _ _) fun _ => writeLengthPrefixed data
  | fixedHuffman codes =>
    exact bind (writeBitsVal _ _) fun _ => bind (lift _) fun _ => bind (lift _) fun _ => compressedCodes _ _ _
  | dynamicHuffman trees codes =>
    exact bind (writeBitsVal _ _) fun _ => bind (writeVec _) fun _ => bind (lift _) fun _ =>
      compressedCodes _ _ _

theorem recompressLoop (blocks : List Block) : Steady (Serialise.recompressLoop blocks) := by
  induction blocks with
  | nil => exact pure ()
  | cons b bs ih => exact bind (writeBit _) fun _ => bind (compressedBlock b) fun _ => ih

end Steady

/-! ### C79 -/

/-- Compress blocks and align, to an output that already has `out` and accepts `room` more bytes: the outcome
and the output. -/
def compressTo (blocks : List Block) (s : Sink) : Except Fail Unit × Sink :=
  match (do recompressLoop blocks; BitWriter.align) (BitWriter.new s) with
  | .ok _ w => (.ok (), w.inner)
  | .error e w => (.error e, w.inner)

/-- C79. Compress any blocks to an output that never fails, and to one that fails after `r` bytes. If all that
the first wrote fits, the second has the same bytes and the same outcome (success, or the same failure).
Otherwise it reports the output's error, and has exactly the first `r` bytes. -/
theorem C79_failing_writer (blocks : List Block) (out : List UInt8) (r : Nat) :
    ∃ (res : Except Fail Unit) (x : List UInt8), compressTo blocks ⟨out, none⟩ = (res, ⟨out ++ x, none⟩) ∧
      (x.length ≤ r → compressTo blocks ⟨out, some r⟩ = (res, ⟨out ++ x, some (r - x.length)⟩)) ∧
      (r < x.length → (compressTo blocks ⟨out, some r⟩).1 = .error (.err .sink) ∧
        (compressTo blocks ⟨out, some r⟩).2.out = out ++ x.take r) := by
  obtain ⟨x, hx⟩ := Steady.bind (Steady.recompressLoop blocks) (fun _ => Steady.align) BitVector.new out
  unfold compressTo BitWriter.new
  cases h : (do recompressLoop blocks; BitWriter.align) (⟨⟨out, none⟩, BitVector.new⟩ : BitWriter) with
  | ok a w =>
    rw [h] at hx
    dsimp only at hx ⊢
    refine ⟨.ok (), x, by rw [hx.1], fun hr => by rw [(hx.2 r).1 hr], fun hr => ?_⟩
    obtain ⟨w', h2, h3⟩ := (hx.2 r).2 hr
    rw [h2]
    exact ⟨rfl, h3⟩
  | error e w =>
    rw [h] at hx
    dsimp only at hx ⊢
    refine ⟨.error e, x, by rw [hx.1], fun hr => by rw [(hx.2 r).1 hr], fun hr => ?_⟩
    obtain ⟨w', h2, h3⟩ := (hx.2 r).2 hr
    rw [h2]
    exact ⟨rfl, h3⟩

/-- With the output of `recompress`: what arrives is a beginning of the compressed stream, all of it exactly
if success is reported. -/
theorem C79_recompress (blocks : List Block) (d : List UInt8) (h : recompress blocks = .ok d) (r : Nat) :
    (compressTo blocks ⟨[], some r⟩).2.out = d.take r ∧
      ((compressTo blocks ⟨[], some r⟩).1 = .ok () ↔ d.length ≤ r) := by
  obtain ⟨res, x, h1, h2, h3⟩ := C79_failing_writer blocks [] r
  have hd : res = .ok () ∧ x = d := by
    unfold recompress Sink.vec at h
    unfold compressTo at h1
    cases hw : (do recompressLoop blocks; BitWriter.align) (BitWriter.new ⟨[], none⟩) with
    | error e w => rw [hw] at h; cases h
    | ok a w =>
      rw [hw] at h h1
      dsimp only at h h1
      simp only [List.nil_append, Prod.mk.injEq] at h1
      refine ⟨h1.1.symm, ?_⟩
      rw [BitWriter.intoInner] at h
      obtain ⟨s, h4, h5⟩ := Ex.bind_eq_ok.1 h
      obtain ⟨_, _, h6⟩ := Ex.bind_eq_ok.1 h4
      cases h6
      cases h5
      rw [h1.2]
  obtain ⟨rfl, rfl⟩ := hd
  rw [List.nil_append] at h2 h3
  by_cases hr : x.length ≤ r
  · rw [h2 hr, List.take_of_length_le hr]
    simp [hr]
  · obtain ⟨h4, h5⟩ := h3 (by omega)
    rw [h5, h4]
    simp [hr]

/-- Three of the five bytes fit. -/
example : compressTo [.fixedHuffman [.literal 0x61], .fixedHuffman [.literal 0x62]] ⟨[], none⟩ =
      (.ok (), ⟨[0x4a, 0x04, 0x2c, 0x09, 0x00], none⟩) ∧
    compressTo [.fixedHuffman [.literal 0x61], .fixedHuffman [.literal 0x62]] ⟨[], some 3⟩ =
      (.error (.err .sink), ⟨[0x4a, 0x04, 0x2c], some 0⟩) := by decide +kernel

end Rezip
