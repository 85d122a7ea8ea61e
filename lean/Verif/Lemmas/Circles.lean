import Verif.Lemmas.Monad
import Verif.Model.Serialise
import Verif.Spec.LZ77

/-! The circular buffer refines the list of all bytes pushed into it. -/

namespace Rezip

namespace CircularBuffer

/-- `push` when nothing can go wrong. -/
def pushP (b : CircularBuffer) (v : UInt8) : CircularBuffer :=
  { data := b.data.set b.idx v
    idx := (b.idx + 1) % b.data.length
    validCap := if b.validCap < b.data.length then b.validCap + 1 else b.validCap }

/-- The buffer of capacity `W` into which `h` was pushed. -/
def ofHist (W : Nat) (h : List UInt8) : CircularBuffer :=
  h.foldl pushP { data := List.replicate W 0, idx := 0, validCap := 0 }

theorem ofHist_snoc (W : Nat) (h : List UInt8) (v : UInt8) :
    ofHist W (h ++ [v]) = (ofHist W h).pushP v := by simp [ofHist]

theorem snoc_induction {α : Type} {P : List α → Prop} (h0 : P [])
    (h1 : ∀ l a, P l → P (l ++ [a])) (l : List α) : P l := by
  have : ∀ l : List α, P l.reverse := by
    intro l
    induction l with
    | nil => exact h0
    | cons a l ih => rw [List.reverse_cons]; exact h1 _ _ ih
  simpa using this l.reverse

theorem ofHist_spec {W : Nat} (hW : 0 < W) (h : List UInt8) :
    (ofHist W h).data.length = W ∧ (ofHist W h).idx = h.length % W ∧
      (ofHist W h).validCap = min W h.length ∧
      ∀ j, j < h.length → h.length ≤ j + W → (ofHist W h).data[j % W]? = h[j]? := by
  induction h using snoc_induction with
  | h0 => simp [ofHist]
  | h1 l a ih =>
    obtain ⟨h1, h2, h3, h4⟩ := ih
    rw [ofHist_snoc]
    have hlt : l.length % W < W := Nat.mod_lt _ hW
    refine ⟨by simp [pushP, h1], ?_, ?_, ?_⟩
    · simp [pushP, h1, h2]
    · simp only [pushP, h1, h3, List.length_append, List.length_singleton]
      split <;> omega
    · intro j hj1 hj2
      rw [List.length_append, List.length_singleton] at hj1 hj2
      simp only [pushP, h2]
      by_cases e : j = l.length
      · subst e
        rw [List.getElem?_set_self (by omega), List.getElem?_append_right (Nat.le_refl _)]
        simp
      · have hne : l.length % W ≠ j % W := by
          intro he
          have : (l.length - j) % W = 0 := by
            have := Nat.sub_mod_eq_zero_of_mod_eq he
            exact this
          rw [Nat.mod_eq_of_lt (by omega)] at this
          omega
        rw [List.getElem?_set_ne hne, h4 j (by omega) (by omega),
          List.getElem?_append_left (by omega)]

theorem push_ofHist {W : Nat} (hW : 0 < W) (hW' : W ≤ 65535) (h : List UInt8) (v : UInt8) :
    (ofHist W h).push v = .ok (ofHist W (h ++ [v])) := by
  obtain ⟨h1, h2, h3, _⟩ := ofHist_spec hW h
  have hlt : (ofHist W h).idx < (ofHist W h).data.length := by
    rw [h1, h2]; exact Nat.mod_lt _ hW
  rw [ofHist_snoc, push, indexSet_ok hlt, Ex.ok_bind]
  dsimp only
  simp only [List.length_set]
  unfold pushP
  by_cases hc : (ofHist W h).validCap < (ofHist W h).data.length
  · rw [if_pos hc, if_pos hc, if_neg (by rw [h1] at hc; omega)]; rfl
  · rw [if_neg hc, if_neg hc]; rfl

theorem extend_ofHist {W : Nat} (hW : 0 < W) (hW' : W ≤ 65535) (h x : List UInt8) :
    (ofHist W h).extend x = .ok (ofHist W (h ++ x)) := by
  induction x generalizing h with
  | nil => rw [extend, List.append_nil]; rfl
  | cons b x ih =>
    rw [extend, push_ofHist hW hW', Ex.ok_bind, ih]
    simp

theorem withCapacity_ok {cap : UInt16} (h : 0 < cap.toNat) :
    withCapacity cap = .ok (ofHist cap.toNat []) := by
  rw [withCapacity, assert_of (by simpa using h)]
  rfl

theorem withCapacity_zero : withCapacity 0 = .error (.panic .assertion) := rfl

theorem getAtDist_ofHist (p : Profile) {W : Nat} (hW : 0 < W) (h : List UInt8) {d : Nat}
    (h1 : 1 ≤ d) (h2 : d ≤ min W h.length) :
    (ofHist W h).getAtDist p d = .ok (h.getD (h.length - d) 0) := by
  obtain ⟨e1, e2, e3, e4⟩ := ofHist_spec hW h
  have hd := e4 (h.length - d) (by omega) (by omega)
  have hlt : h.length % W < W := Nat.mod_lt _ hW
  have key : (if ((ofHist W h).idx : Int) - d ≥ 0 then ((ofHist W h).idx : Int) - d
      else ((ofHist W h).idx : Int) - d + (ofHist W h).data.length) =
      (((h.length - d) % W : Nat) : Int) := by
    rw [e1, e2]
    have hdm := Nat.div_add_mod h.length W
    split
    · rename_i hge
      have : (h.length - d) % W = h.length % W - d := by
        have : h.length - d = h.length % W - d + W * (h.length / W) := by omega
        rw [this, Nat.add_mul_mod_self_left, Nat.mod_eq_of_lt (by omega)]
      omega
    · rename_i hge
      have : (h.length - d) % W = h.length % W + W - d := by
        have hq : 1 ≤ h.length / W := by
          apply Nat.pos_of_ne_zero
          intro h0
          rw [h0] at hdm
          omega
        have hm : W * (h.length / W) = W + W * (h.length / W - 1) := by
          have := Nat.mul_add W 1 (h.length / W - 1)
          rw [show 1 + (h.length / W - 1) = h.length / W by omega] at this
          omega
        have : h.length - d = h.length % W + W - d + W * (h.length / W - 1) := by omega
        rw [this, Nat.add_mul_mod_self_left, Nat.mod_eq_of_lt (by omega)]
      omega
  have hidx : index (ofHist W h).data ((h.length - d) % W) = .ok (h.getD (h.length - d) 0) := by
    rw [index_eq_ok, hd, List.getD_eq_getElem?_getD, List.getElem?_eq_getElem (by omega)]
    rfl
  have fin : (if (((h.length - d) % W : Nat) : Int) < 0 then
      (.error (.panic .index) : Except Fail UInt8)
      else index (ofHist W h).data (((h.length - d) % W : Nat) : Int).toNat) =
      .ok (h.getD (h.length - d) 0) := by
    rw [if_neg (by exact Int.not_lt.2 (Int.natCast_nonneg _)), Int.toNat_natCast, hidx]
  unfold getAtDist
  dsimp only
  rw [key, fin]
  rw [if_neg (c := ¬ d > 0) (by omega), if_neg (c := ¬ (ofHist W h).validCap ≤ _) (by omega),
    if_neg (c := ¬ d ≤ (ofHist W h).validCap) (by omega)]
  cases p <;> rfl

theorem vecLoop_ofHist (p : Profile) {W : Nat} (hW : 0 < W) (h : List UInt8) (n : Nat)
    (hn : n ≤ min W h.length) : (ofHist W h).vecLoop p n = .ok (h.drop (h.length - n)) := by
  induction n with
  | zero => rw [vecLoop]; simp
  | succ n ih =>
    rw [vecLoop, getAtDist_ofHist p hW h (by omega) hn, Ex.ok_bind, ih (by omega), Ex.ok_bind,
      Ex.pure_eq]
    congr 1
    rw [show h.length - n = h.length - (n + 1) + 1 by omega,
      List.drop_eq_getElem_cons (i := h.length - (n + 1)) (by omega)]
    congr 1
    rw [List.getD_eq_getElem?_getD, List.getElem?_eq_getElem (by omega)]
    rfl

theorem copyStart {W : Nat} (hW : 0 < W) (hW' : W ≤ 65535) (h : List UInt8) {d : Nat}
    (h1 : 1 ≤ d) (h2 : d ≤ min W h.length) :
    wrappingAdd (wrappingSub (ofHist W h).idx d) (ofHist W h).data.length %
      (ofHist W h).data.length = (h.length - d) % W := by
  obtain ⟨e1, e2, e3, e4⟩ := ofHist_spec hW h
  have hlt : h.length % W < W := Nat.mod_lt _ hW
  rw [e1, e2]
  have : wrappingAdd (wrappingSub (h.length % W) d) W % W = (h.length % W + W - d) % W := by
    unfold wrappingAdd wrappingSub
    by_cases hc : d ≤ h.length % W
    · have a : (h.length % W + 2 ^ 64 - d) % 2 ^ 64 = h.length % W - d := by omega
      rw [a]
      have b : (h.length % W - d + W) % 2 ^ 64 = h.length % W + W - d := by omega
      rw [b]
    · have b : ((h.length % W + 2 ^ 64 - d) % 2 ^ 64 + W) % 2 ^ 64 = h.length % W + W - d := by
        omega
      rw [b]
  rw [this]
  have hdm := Nat.div_add_mod h.length W
  have e : (h.length - d) % W = (h.length - d + W) % W := by simp
  rw [e]
  have : h.length - d + W = h.length % W + W - d + W * (h.length / W) := by omega
  rw [this, Nat.add_mul_mod_self_left]

end CircularBuffer

/-! ### Sinks -/

theorem writeAll_nil (s : Sink) : writeAll [] s = .ok () s := by
  unfold writeAll
  obtain ⟨out, room⟩ := s
  cases room <;> simp

theorem writeAll_append (x y : List UInt8) (s : Sink) :
    writeAll (x ++ y) s = match writeAll x s with
      | .ok _ s => writeAll y s
      | .error e s => .error e s := by
  unfold writeAll
  obtain ⟨out, room⟩ := s
  cases room with
  | none => simp
  | some r =>
    dsimp only
    by_cases h1 : x.length ≤ r
    · rw [if_pos h1]
      dsimp only
      by_cases h2 : (x ++ y).length ≤ r
      · rw [if_pos h2, if_pos (by rw [List.length_append] at h2; omega)]
        simp [Nat.sub_sub]
      · rw [if_neg h2, if_neg (by rw [List.length_append] at h2; omega)]
        simp [List.take_append, List.take_of_length_le h1]
    · rw [if_neg h1]
      dsimp only
      rw [if_neg (by rw [List.length_append]; omega)]
      simp [List.take_append, show r - x.length = 0 by omega]

theorem writeAll_vec (x out : List UInt8) :
    writeAll x { out := out, room := none } = .ok () { out := out ++ x, room := none } := rfl

/-! ### LZ77 -/

theorem lzCopy_length (h : List UInt8) (d n : Nat) : (lzCopy h d n).length = n := by
  induction n generalizing h with
  | zero => rfl
  | succ n ih => simp [lzCopy, ih]

theorem lzExpand_eq (W : Nat) (h : List UInt8) (cs : List Code) :
    (lzExpand W h cs = some (lzDecodable W h cs)) ∨ lzExpand W h cs = none := by
  induction cs generalizing h with
  | nil => left; rfl
  | cons c cs ih =>
    rw [lzExpand, lzDecodable]
    cases lzCode W h c with
    | none => right; rfl
    | some x =>
      dsimp only
      rcases ih (h ++ x) with h1 | h1 <;> rw [h1]
      · left; rfl
      · right; rfl

theorem lzExpand_append (W : Nat) (h : List UInt8) (cs₁ cs₂ : List Code) :
    lzExpand W h (cs₁ ++ cs₂) = match lzExpand W h cs₁ with
      | none => none
      | some x => match lzExpand W (h ++ x) cs₂ with
        | none => none
        | some y => some (x ++ y) := by
  induction cs₁ generalizing h with
  | nil => simp only [List.nil_append, lzExpand, List.append_nil]; cases lzExpand W h cs₂ <;> rfl
  | cons c cs ih =>
    simp only [List.cons_append, lzExpand]
    cases lzCode W h c with
    | none => rfl
    | some x =>
      dsimp only
      rw [ih]
      cases lzExpand W (h ++ x) cs with
      | none => rfl
      | some y =>
        dsimp only
        rw [List.append_assoc]
        cases lzExpand W (h ++ (x ++ y)) cs₂ <;> simp

theorem lzDecodable_append (W : Nat) (h : List UInt8) (cs₁ cs₂ : List Code) :
    lzDecodable W h (cs₁ ++ cs₂) = match lzExpand W h cs₁ with
      | none => lzDecodable W h cs₁
      | some x => x ++ lzDecodable W (h ++ x) cs₂ := by
  induction cs₁ generalizing h with
  | nil => simp [lzExpand]
  | cons c cs ih =>
    simp only [List.cons_append, lzExpand, lzDecodable]
    cases lzCode W h c with
    | none => rfl
    | some x =>
      dsimp only
      rw [ih]
      cases lzExpand W (h ++ x) cs with
      | none => rfl
      | some y => simp

theorem lzExpand_literals (W : Nat) (h data : List UInt8) :
    lzExpand W h (data.map .literal) = some data := by
  induction data generalizing h with
  | nil => rfl
  | cons b data ih => simp [lzExpand, lzCode, ih]

theorem lzCode_length {W : Nat} {h x : List UInt8} {c : Code} (hc : lzCode W h c = some x) :
    x.length = c.emittedBytes := by
  cases c with
  | literal b => cases hc; rfl
  | reference r =>
    rw [lzCode] at hc
    split at hc
    · cases hc; rw [lzCopy_length]; rfl
    · cases hc

theorem lzExpand_length {W : Nat} {h x : List UInt8} {cs : List Code}
    (hx : lzExpand W h cs = some x) : x.length = (cs.map Code.emittedBytes).sum := by
  induction cs generalizing h x with
  | nil => cases hx; rfl
  | cons c cs ih =>
    rw [lzExpand] at hx
    cases hc : lzCode W h c with
    | none => rw [hc] at hx; cases hx
    | some y =>
      rw [hc] at hx
      dsimp only at hx
      cases he : lzExpand W (h ++ y) cs with
      | none => rw [he] at hx; cases hx
      | some z =>
        rw [he] at hx
        cases hx
        simp [ih he, lzCode_length hc]

/-! ### Decompression -/

namespace DecState

open CircularBuffer

/-- Outcome of an operation that should append `x` to the history `h` (capacity `W`) and write it to
the sink `s`, and then return `res`. -/
def Appends (W : Nat) (h x : List UInt8) (s : Sink) (res : Except Fail Unit)
    (r : EStateM.Result Fail DecState Unit) : Prop :=
  match writeAll x s with
  | .ok _ s' =>
    match res with
    | .ok _ => r = .ok () { dict := ofHist W (h ++ x), into := s' }
    | .error e => r = .error e { dict := ofHist W (h ++ x), into := s' }
  | .error e s' => ∃ y, y <+: x ∧ r = .error e { dict := ofHist W (h ++ y), into := s' }

theorem Appends.bind {W : Nat} {h x y : List UInt8} {s : Sink} {res : Except Fail Unit}
    {m : EStateM Fail DecState Unit} {f : Unit → EStateM Fail DecState Unit} {st : DecState}
    (h1 : Appends W h x s (.ok ()) (m st))
    (h2 : ∀ s', Appends W (h ++ x) y s' res (f () { dict := ofHist W (h ++ x), into := s' })) :
    Appends W h (x ++ y) s res ((m >>= f) st) := by
  unfold Appends at h1 ⊢
  rw [writeAll_append]
  cases hw : writeAll x s with
  | ok u s' =>
    rw [hw] at h1
    dsimp only at h1 ⊢
    rw [ES.bind_ok h1]
    have := h2 s'
    unfold Appends at this
    cases hw2 : writeAll y s' with
    | ok u2 s2 =>
      rw [hw2] at this
      dsimp only at this ⊢
      rw [← List.append_assoc]
      exact this
    | error e s2 =>
      rw [hw2] at this
      dsimp only at this ⊢
      obtain ⟨z, hz, hr⟩ := this
      exact ⟨x ++ z, (List.prefix_append_right_inj x).2 hz, by rw [← List.append_assoc]; exact hr⟩
  | error e s' =>
    rw [hw] at h1
    dsimp only at h1 ⊢
    obtain ⟨z, hz, hr⟩ := h1
    exact ⟨z, hz.trans (List.prefix_append _ _), ES.bind_err hr⟩

theorem push_eq {W : Nat} (hW : 0 < W) (hW' : W ≤ 65535) (h : List UInt8) (s : Sink) (b : UInt8) :
    push b { dict := ofHist W h, into := s } =
      .ok () { dict := ofHist W (h ++ [b]), into := s } := by
  unfold push
  dsimp only
  rw [push_ofHist hW hW']

theorem appends_pure (W : Nat) (h : List UInt8) (s : Sink) (res : Except Fail Unit)
    (r : EStateM.Result Fail DecState Unit)
    (hr : r = match res with
      | .ok _ => .ok () { dict := ofHist W h, into := s }
      | .error e => .error e { dict := ofHist W h, into := s }) :
    Appends W h [] s res r := by
  unfold Appends
  rw [writeAll_nil, List.append_nil]
  cases res <;> exact hr

theorem appends_writePush {W : Nat} (hW : 0 < W) (hW' : W ≤ 65535) (h : List UInt8) (s : Sink)
    (b : UInt8) : Appends W h [b] s (.ok ())
      ((write [b] >>= fun _ => push b) { dict := ofHist W h, into := s }) := by
  unfold Appends
  cases hw : writeAll [b] s with
  | ok u s' =>
    dsimp only
    rw [ES.bind_ok (a := ()) (s' := { dict := ofHist W h, into := s' }) (by unfold write; simp [hw])]
    exact push_eq hW hW' h s' b
  | error e s' =>
    dsimp only
    refine ⟨[], List.nil_prefix, ?_⟩
    rw [List.append_nil]
    exact ES.bind_err (by unfold write; simp [hw])

theorem appends_pushWrite {W : Nat} (hW : 0 < W) (hW' : W ≤ 65535) (h : List UInt8) (s : Sink)
    (b : UInt8) : Appends W h [b] s (.ok ())
      ((push b >>= fun _ => write [b]) { dict := ofHist W h, into := s }) := by
  unfold Appends
  rw [ES.bind_ok (push_eq hW hW' h s b)]
  unfold write
  dsimp only
  cases hw : writeAll [b] s with
  | ok u s' => rfl
  | error e s' => exact ⟨[b], List.prefix_rfl, rfl⟩

theorem appends_extendWrite {W : Nat} (hW : 0 < W) (hW' : W ≤ 65535) (h : List UInt8) (s : Sink)
    (x : List UInt8) : Appends W h x s (.ok ())
      ((extend x >>= fun _ => write x) { dict := ofHist W h, into := s }) := by
  unfold Appends
  have : extend x { dict := ofHist W h, into := s } =
      .ok () { dict := ofHist W (h ++ x), into := s } := by
    unfold extend
    dsimp only
    rw [extend_ofHist hW hW']
  rw [ES.bind_ok this]
  unfold write
  dsimp only
  cases hw : writeAll x s with
  | ok u s' => rfl
  | error e s' => exact ⟨x, List.prefix_rfl, rfl⟩

theorem appends_copyLoop {W : Nat} (hW : 0 < W) (hW' : W ≤ 65535) (n : Nat) {d : Nat}
    (h1 : 1 ≤ d) (h : List UInt8) (h2 : d ≤ min W h.length) (s : Sink) :
    Appends W h (lzCopy h d n) s (.ok ())
      (copyLoop n ((h.length - d) % W) { dict := ofHist W h, into := s }) := by
  induction n generalizing h s with
  | zero => exact appends_pure _ _ _ _ _ rfl
  | succ n ih =>
    rw [copyLoop, ES.get_bind]
    obtain ⟨e1, e2, e3, e4⟩ := ofHist_spec hW h
    have hidx : index (ofHist W h).data ((h.length - d) % W) = .ok (h.getD (h.length - d) 0) := by
      rw [index_eq_ok, e4 _ (by omega) (by omega), List.getD_eq_getElem?_getD,
        List.getElem?_eq_getElem (by omega)]
      rfl
    dsimp only
    rw [hidx, ES.liftE_bind_ok, e1, lzCopy]
    have a := appends_writePush hW hW' h s (h.getD (h.length - d) 0)
    have hl : (h ++ [h.getD (h.length - d) 0]).length - d = h.length - d + 1 := by
      rw [List.length_append, List.length_singleton]; omega
    have b := Appends.bind (y := lzCopy (h ++ [h.getD (h.length - d) 0]) d n)
      (f := fun _ => copyLoop n ((h.length - d + 1) % W)) (res := .ok ()) a (fun s' => by
        have := ih (h ++ [h.getD (h.length - d) 0])
          (by rw [List.length_append, List.length_singleton]; omega) s'
        rw [hl] at this
        exact this)
    rw [ES.bind_assoc_apply] at b
    rw [Nat.mod_add_mod]
    exact b

theorem copy_bad {W : Nat} (hW : 0 < W) (h : List UInt8) (s : Sink) (d n : Nat)
    (hd : ¬ (1 ≤ d ∧ d ≤ min W h.length)) :
    copy d n { dict := ofHist W h, into := s } =
      .error (.err .distMustFit) { dict := ofHist W h, into := s } := by
  obtain ⟨e1, e2, e3, e4⟩ := ofHist_spec hW h
  rw [copy, ES.get_bind]
  dsimp only
  rw [e3]
  have : (decide (d > 0) && decide (d ≤ min W h.length)) = false := by
    simp only [Bool.and_eq_false_iff, decide_eq_false_iff_not]; omega
  rw [this]
  rfl

theorem appends_copy {W : Nat} (hW : 0 < W) (hW' : W ≤ 65535) (n : Nat) {d : Nat}
    (h1 : 1 ≤ d) (h : List UInt8) (h2 : d ≤ min W h.length) (s : Sink) :
    Appends W h (lzCopy h d n) s (.ok ()) (copy d n { dict := ofHist W h, into := s }) := by
  rw [copy, ES.get_bind]
  dsimp only
  obtain ⟨e1, e2, e3, e4⟩ := ofHist_spec hW h
  rw [copyStart hW hW' h h1 h2, e3]
  have : (decide (d > 0) && decide (d ≤ min W h.length)) = true := by
    simp only [Bool.and_eq_true, decide_eq_true_eq]; omega
  rw [this]
  exact appends_copyLoop hW hW' n h1 h h2 s

end DecState

namespace Serialise

open CircularBuffer DecState

theorem decompressedCode_cases {W : Nat} (hW : 0 < W) (hW' : W ≤ 65535) (h : List UInt8) (s : Sink)
    (c : Code) :
    match lzCode W h c with
    | some x => Appends W h x s (.ok ()) (decompressedCode c { dict := ofHist W h, into := s })
    | none => decompressedCode c { dict := ofHist W h, into := s } =
        .error (.err .distMustFit) { dict := ofHist W h, into := s } := by
  cases c with
  | literal b => exact appends_pushWrite hW hW' h s b
  | reference r =>
    rw [lzCode, decompressedCode]
    by_cases hd : 1 ≤ r.dist.toNat ∧ r.dist.toNat ≤ min W h.length
    · rw [if_pos hd]
      exact appends_copy hW hW' r.run hd.1 h hd.2 s
    · rw [if_neg hd]
      exact copy_bad hW h s _ _ hd

/-- What `decompressed_codes` returns if the output does not fail. -/
def expandResult (W : Nat) (h : List UInt8) (cs : List Code) : Except Fail Unit :=
  match lzExpand W h cs with
  | some _ => .ok ()
  | none => .error (.err .distMustFit)

theorem decompressedCodes_appends {W : Nat} (hW : 0 < W) (hW' : W ≤ 65535) (cs : List Code)
    (h : List UInt8) (s : Sink) :
    Appends W h (lzDecodable W h cs) s (expandResult W h cs)
      (decompressedCodes cs { dict := ofHist W h, into := s }) := by
  induction cs generalizing h s with
  | nil => exact appends_pure _ _ _ _ _ rfl
  | cons c cs ih =>
    rw [decompressedCodes, lzDecodable, expandResult, lzExpand]
    have hc := decompressedCode_cases hW hW' h s c
    cases hx : lzCode W h c with
    | none =>
      rw [hx] at hc
      dsimp only at hc ⊢
      exact appends_pure _ _ _ _ _ (ES.bind_err hc)
    | some x =>
      rw [hx] at hc
      dsimp only at hc ⊢
      have := Appends.bind (f := fun _ => decompressedCodes cs) hc (fun s' => ih (h ++ x) s')
      rw [expandResult] at this
      cases he : lzExpand W (h ++ x) cs with
      | none => rw [he] at this; exact this
      | some y => rw [he] at this; exact this

theorem decompressedBlock_appends {W : Nat} (hW : 0 < W) (hW' : W ≤ 65535) (b : Block)
    (h : List UInt8) (s : Sink) :
    Appends W h (lzDecodable W h (lzCodes b)) s (expandResult W h (lzCodes b))
      (decompressedBlock b { dict := ofHist W h, into := s }) := by
  cases b with
  | uncompressed data =>
    have e := lzExpand_literals W h data
    have e2 : lzDecodable W h (data.map .literal) = data := by
      rcases lzExpand_eq W h (data.map .literal) with h1 | h1 <;> rw [e] at h1
      · exact (Option.some.inj h1).symm
      · cases h1
    rw [lzCodes, e2, expandResult, e]
    exact appends_extendWrite hW hW' h s data
  | fixedHuffman codes => exact decompressedCodes_appends hW hW' codes h s
  | dynamicHuffman t codes => exact decompressedCodes_appends hW hW' codes h s

end Serialise

end Rezip
