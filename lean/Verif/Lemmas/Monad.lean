import Verif.Model.Base

/-! How the monads of the model compute. -/

namespace Rezip

deriving instance DecidableEq for Except
deriving instance DecidableEq for EStateM.Result

namespace ES

variable {σ α β : Type}

theorem bind_ok {x : EStateM Fail σ α} {f : α → EStateM Fail σ β} {s s' : σ} {a : α}
    (h : x s = .ok a s') : (x >>= f) s = f a s' := by
  show EStateM.bind x f s = _
  simp only [EStateM.bind, h]

theorem bind_err {x : EStateM Fail σ α} {f : α → EStateM Fail σ β} {s s' : σ} {e : Fail}
    (h : x s = .error e s') : (x >>= f) s = .error e s' := by
  show EStateM.bind x f s = _
  simp only [EStateM.bind, h]

theorem bind_apply (x : EStateM Fail σ α) (f : α → EStateM Fail σ β) (s : σ) :
    (x >>= f) s = match x s with
      | .ok a s => f a s
      | .error e s => .error e s := by
  show EStateM.bind x f s = _
  simp only [EStateM.bind]
  cases x s <;> rfl

@[simp] theorem pure_apply (a : α) (s : σ) : (pure a : EStateM Fail σ α) s = .ok a s := rfl

@[simp] theorem get_apply (s : σ) : (get : EStateM Fail σ σ) s = .ok s s := rfl

@[simp] theorem set_apply (s t : σ) : (set t : EStateM Fail σ PUnit) s = .ok () t := rfl

@[simp] theorem get_bind (f : σ → EStateM Fail σ β) (s : σ) :
    ((get : EStateM Fail σ σ) >>= f) s = f s s := rfl

@[simp] theorem set_bind (t : σ) (f : PUnit → EStateM Fail σ β) (s : σ) :
    ((set t : EStateM Fail σ PUnit) >>= f) s = f () t := rfl

@[simp] theorem pure_bind (a : α) (f : α → EStateM Fail σ β) (s : σ) :
    ((pure a : EStateM Fail σ α) >>= f) s = f a s := rfl

@[simp] theorem liftE_ok (a : α) (s : σ) : (liftE (.ok a) : EStateM Fail σ α) s = .ok a s := rfl

@[simp] theorem liftE_error (e : Fail) (s : σ) :
    (liftE (.error e) : EStateM Fail σ α) s = .error e s := rfl

@[simp] theorem liftE_bind_ok (a : α) (f : α → EStateM Fail σ β) (s : σ) :
    ((liftE (.ok a) : EStateM Fail σ α) >>= f) s = f a s := rfl

@[simp] theorem liftE_bind_error (e : Fail) (f : α → EStateM Fail σ β) (s : σ) :
    ((liftE (.error e) : EStateM Fail σ α) >>= f) s = .error e s := rfl

@[simp] theorem bind_assoc_apply {γ : Type} (x : EStateM Fail σ α) (f : α → EStateM Fail σ β)
    (g : β → EStateM Fail σ γ) (s : σ) :
    ((x >>= f) >>= g) s = (x >>= fun a => f a >>= g) s := by
  simp only [bind_apply]
  cases x s <;> rfl

/-- Case analysis for a successful bind. -/
theorem bind_eq_ok {x : EStateM Fail σ α} {f : α → EStateM Fail σ β} {s s'' : σ} {b : β} :
    (x >>= f) s = .ok b s'' ↔ ∃ a s', x s = .ok a s' ∧ f a s' = .ok b s'' := by
  rw [bind_apply]
  cases x s <;> simp [and_assoc]

/-- Case analysis for a failing bind. -/
theorem bind_eq_error {x : EStateM Fail σ α} {f : α → EStateM Fail σ β} {s s'' : σ} {e : Fail} :
    (x >>= f) s = .error e s'' ↔
      x s = .error e s'' ∨ ∃ a s', x s = .ok a s' ∧ f a s' = .error e s'' := by
  rw [bind_apply]
  cases x s <;> simp [and_assoc]

theorem liftE_eq_ok {x : Except Fail α} {s s' : σ} {a : α} :
    (liftE x : EStateM Fail σ α) s = .ok a s' ↔ x = .ok a ∧ s = s' := by
  cases x <;> simp [liftE]

theorem liftE_eq_error {x : Except Fail α} {s s' : σ} {e : Fail} :
    (liftE x : EStateM Fail σ α) s = .error e s' ↔ x = .error e ∧ s = s' := by
  cases x <;> simp [liftE]

end ES

namespace Ex

variable {α β : Type}

@[simp] theorem ok_bind (a : α) (f : α → Except Fail β) :
    ((Except.ok a : Except Fail α) >>= f) = f a := rfl

@[simp] theorem error_bind (e : Fail) (f : α → Except Fail β) :
    ((Except.error e : Except Fail α) >>= f) = .error e := rfl

@[simp] theorem pure_eq (a : α) : (pure a : Except Fail α) = .ok a := rfl

theorem bind_eq_ok {x : Except Fail α} {f : α → Except Fail β} {b : β} :
    (x >>= f) = .ok b ↔ ∃ a, x = .ok a ∧ f a = .ok b := by
  cases x <;> simp

theorem bind_eq_error {x : Except Fail α} {f : α → Except Fail β} {e : Fail} :
    (x >>= f) = .error e ↔ x = .error e ∨ ∃ a, x = .ok a ∧ f a = .error e := by
  cases x <;> simp

end Ex

@[simp] theorem assert_true : assert true = .ok () := rfl
@[simp] theorem assert_false : assert false = .error (.panic .assertion) := rfl
@[simp] theorem ensure_true (e : Err) : ensure true e = .ok () := rfl
@[simp] theorem ensure_false (e : Err) : ensure false e = .error (.err e) := rfl

theorem assert_of {c : Bool} (h : c = true) : assert c = .ok () := by subst h; rfl
theorem ensure_of {c : Bool} {e : Err} (h : c = true) : ensure c e = .ok () := by subst h; rfl

theorem assert_eq_ok {c : Bool} {u : Unit} : assert c = .ok u ↔ c = true := by
  cases c <;> simp

theorem ensure_eq_ok {c : Bool} {e : Err} {u : Unit} : ensure c e = .ok u ↔ c = true := by
  cases c <;> simp

theorem index_ok {α : Type} {xs : List α} {i : Nat} (h : i < xs.length) :
    index xs i = .ok xs[i] := by simp [index, h]

theorem index_eq_ok {α : Type} {xs : List α} {i : Nat} {x : α} :
    index xs i = .ok x ↔ xs[i]? = some x := by
  unfold index
  cases xs[i]? <;> simp

theorem indexSet_ok {α : Type} {xs : List α} {i : Nat} {v : α} (h : i < xs.length) :
    indexSet xs i v = .ok (xs.set i v) := by simp [indexSet, h]

theorem indexSet_eq_ok {α : Type} {xs ys : List α} {i : Nat} {v : α} :
    indexSet xs i v = .ok ys ↔ i < xs.length ∧ xs.set i v = ys := by
  unfold indexSet
  split <;> simp [*]

end Rezip
