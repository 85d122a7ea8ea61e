import Verif.Model.Base

/-!
# lib/src/filter.rs

The inner reader or writer is any state machine, the hash any type with an update function (SHA-512
itself, from the `sha2` crate, is not modelled).
-/

namespace Rezip

namespace Filter

/-- The part of `sha2::Digest` that is used. (filter.rs:21, 30 and 40.) -/
structure Hasher (H : Type) where
  init : H
  update : H → List UInt8 → H
  finalize : H → List UInt8

/-- `Read::read` of the inner reader: given its state and the buffer, the result, the buffer afterwards
and the new state. (filter.rs:20.) -/
abbrev Reader (R : Type) := R → List UInt8 → Except Fail Nat × List UInt8 × R

/-- `Write::write` of the inner writer. (filter.rs:46.) -/
abbrev Writer (W : Type) := W → List UInt8 → Except Fail Nat × W

/-- filter.rs:8-16 `FilterRead` and `FilterWrite`. -/
structure State (I H : Type) where
  inner : I
  hash : H

/-- filter.rs:27-32 and 53-58 `new`. -/
def new {I H : Type} (h : Hasher H) (inner : I) : State I H := { inner := inner, hash := h.init }

/-- `&buf[0..len]`: panics if `len` is out of range. (filter.rs:21 and 47.) -/
def slice (buf : List UInt8) (len : Nat) : Except Fail (List UInt8) :=
  if len ≤ buf.length then .ok (buf.take len) else .error (.panic .index)

/-- filter.rs:18-24 `FilterRead::read`. -/
def read {R H : Type} (rd : Reader R) (h : Hasher H) (f : State R H) (buf : List UInt8) :
    Except Fail Nat × List UInt8 × State R H :=
  match rd f.inner buf with
  | (.error e, buf, inner) => (.error e, buf, { f with inner := inner })
  | (.ok len, buf, inner) =>
    match slice buf len with
    | .error e => (.error e, buf, { f with inner := inner })
    | .ok bytes => (.ok len, buf, { inner := inner, hash := h.update f.hash bytes })

/-- filter.rs:44-49 `FilterWrite::write`. -/
def write {W H : Type} (wr : Writer W) (h : Hasher H) (f : State W H) (buf : List UInt8) :
    Except Fail Nat × State W H :=
  match wr f.inner buf with
  | (.error e, inner) => (.error e, { f with inner := inner })
  | (.ok len, inner) =>
    match slice buf len with
    | .error e => (.error e, { f with inner := inner })
    | .ok bytes => (.ok len, { inner := inner, hash := h.update f.hash bytes })

/-- filter.rs:39-41 and 69-71 `hash`. -/
def hash {I H : Type} (h : Hasher H) (f : State I H) : List UInt8 := h.finalize f.hash

/-- filter.rs:35-37 and 65-67 `into_inner`. -/
def intoInner {I H : Type} (f : State I H) : I := f.inner

end Filter

end Rezip
