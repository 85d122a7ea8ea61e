import Verif.Model.Filter

/-!
# C58: hash filters
-/

namespace Rezip

namespace Filter

/-- Updating with pieces is updating with their concatenation (true of every hash function fed in pieces;
the only thing assumed of SHA-512). -/
def Incremental {H : Type} (h : Hasher H) : Prop :=
  ∀ s a b, h.update (h.update s a) b = h.update s (a ++ b)

/-- An inner reader that keeps the contract of `Read`: it never claims more than the buffer holds. -/
def GoodReader {R : Type} (rd : Reader R) : Prop :=
  ∀ r buf n, (rd r buf).1 = .ok n → n ≤ (rd r buf).2.1.length

/-- The same for `Write`. -/
def GoodWriter {W : Type} (wr : Writer W) : Prop := ∀ w buf n, (wr w buf).1 = .ok n → n ≤ buf.length

/-- What a caller sees from a series of reads, each with its own buffer: results and buffers. -/
def readsInner {R : Type} (rd : Reader R) :
    R → List (List UInt8) → List (Except Fail Nat × List UInt8) × R
  | r, [] => ([], r)
  | r, buf :: bufs =>
    let (res, buf', r') := rd r buf
    let (rest, r'') := readsInner rd r' bufs
    ((res, buf') :: rest, r'')

/-- The same through the filter. -/
def readsFilter {R H : Type} (rd : Reader R) (h : Hasher H) :
    State R H → List (List UInt8) → List (Except Fail Nat × List UInt8) × State R H
  | f, [] => ([], f)
  | f, buf :: bufs =>
    let (res, buf', f') := read rd h f buf
    let (rest, f'') := readsFilter rd h f' bufs
    ((res, buf') :: rest, f'')

/-- The bytes these reads returned, in order. -/
def bytesRead : List (Except Fail Nat × List UInt8) → List UInt8
  | [] => []
  | (.ok n, buf) :: rest => buf.take n ++ bytesRead rest
  | (.error _, _) :: rest => bytesRead rest

/-- A series of writes to the inner writer: the results. -/
def writesInner {W : Type} (wr : Writer W) : W → List (List UInt8) → List (Except Fail Nat) × W
  | w, [] => ([], w)
  | w, buf :: bufs =>
    let (res, w') := wr w buf
    let (rest, w'') := writesInner wr w' bufs
    (res :: rest, w'')

/-- The same through the filter. -/
def writesFilter {W H : Type} (wr : Writer W) (h : Hasher H) :
    State W H → List (List UInt8) → List (Except Fail Nat) × State W H
  | f, [] => ([], f)
  | f, buf :: bufs =>
    let (res, f') := write wr h f buf
    let (rest, f'') := writesFilter wr h f' bufs
    (res :: rest, f'')

/-- The bytes these writes accepted, in order. -/
def bytesWritten : List (Except Fail Nat) → List (List UInt8) → List UInt8
  | .ok n :: rest, buf :: bufs => buf.take n ++ bytesWritten rest bufs
  | .error _ :: rest, _ :: bufs => bytesWritten rest bufs
  | _, _ => []

theorem reads_eq {R H : Type} (rd : Reader R) (h : Hasher H) (hr : GoodReader rd)
    (hi : Incremental h) (bufs : List (List UInt8)) (f : State R H) (p : List UInt8)
    (s : H) (hs : f.hash = h.update s p) :
    (readsFilter rd h f bufs).1 = (readsInner rd f.inner bufs).1 ∧
    (readsFilter rd h f bufs).2.inner = (readsInner rd f.inner bufs).2 ∧
    (readsFilter rd h f bufs).2.hash =
      h.update s (p ++ bytesRead (readsInner rd f.inner bufs).1) := by
  induction bufs generalizing f p with
  | nil => simp [readsFilter, readsInner, bytesRead, hs]
  | cons buf bufs ih =>
    have hread : ∃ hash', read rd h f buf =
        ((rd f.inner buf).1, (rd f.inner buf).2.1, ⟨(rd f.inner buf).2.2, hash'⟩) ∧
        hash' = h.update s (p ++ bytesRead [((rd f.inner buf).1, (rd f.inner buf).2.1)]) := by
      have hg := hr f.inner buf
      rw [read]
      rcases hrd : rd f.inner buf with ⟨res, buf', r'⟩
      rw [hrd] at hg
      cases res with
      | error e => exact ⟨f.hash, rfl, by rw [bytesRead, bytesRead, List.append_nil, hs]⟩
      | ok n =>
        have := hg n rfl
        dsimp only at this ⊢
        rw [slice, if_pos this]
        refine ⟨_, rfl, ?_⟩
        rw [hs, hi, bytesRead, bytesRead, List.append_nil]
    obtain ⟨hash', e1, e2⟩ := hread
    have := ih ⟨(rd f.inner buf).2.2, hash'⟩ _ e2
    dsimp only at this
    obtain ⟨i1, i2, i3⟩ := this
    rw [readsFilter, readsInner, e1]
    dsimp only
    refine ⟨by rw [i1], i2, ?_⟩
    rw [i3, List.append_assoc]
    congr 2
    cases (rd f.inner buf).1 with
    | ok n => simp [bytesRead]
    | error e => simp [bytesRead]

theorem writes_eq {W H : Type} (wr : Writer W) (h : Hasher H) (hr : GoodWriter wr)
    (hi : Incremental h) (bufs : List (List UInt8)) (f : State W H) (p : List UInt8)
    (s : H) (hs : f.hash = h.update s p) :
    (writesFilter wr h f bufs).1 = (writesInner wr f.inner bufs).1 ∧
    (writesFilter wr h f bufs).2.inner = (writesInner wr f.inner bufs).2 ∧
    (writesFilter wr h f bufs).2.hash =
      h.update s (p ++ bytesWritten (writesInner wr f.inner bufs).1 bufs) := by
  induction bufs generalizing f p with
  | nil => simp [writesFilter, writesInner, bytesWritten, hs]
  | cons buf bufs ih =>
    have hwrite : ∃ hash', write wr h f buf = ((wr f.inner buf).1, ⟨(wr f.inner buf).2, hash'⟩) ∧
        hash' = h.update s (p ++ bytesWritten [(wr f.inner buf).1] [buf]) := by
      have hg := hr f.inner buf
      rw [write]
      rcases hrd : wr f.inner buf with ⟨res, r'⟩
      rw [hrd] at hg
      cases res with
      | error e => exact ⟨f.hash, rfl, by simp [bytesWritten, hs]⟩
      | ok n =>
        have := hg n rfl
        dsimp only at this ⊢
        rw [slice, if_pos this]
        refine ⟨_, rfl, ?_⟩
        rw [hs, hi]
        simp [bytesWritten]
    obtain ⟨hash', e1, e2⟩ := hwrite
    have := ih ⟨(wr f.inner buf).2, hash'⟩ _ e2
    dsimp only at this
    obtain ⟨i1, i2, i3⟩ := this
    rw [writesFilter, writesInner, e1]
    dsimp only
    refine ⟨by rw [i1], i2, ?_⟩
    rw [i3, List.append_assoc]
    congr 2
    cases (wr f.inner buf).1 with
    | ok n => simp [bytesWritten]
    | error e => simp [bytesWritten]

end Filter

open Filter

/-- C58, reading: for every inner reader and every series of reads (short reads, errors and retries
included) the caller sees exactly what the inner reader gives, which ends in the same state, and the hash
is that of the concatenation of the bytes returned. (For a hash whose update with nothing from the start
is the start.) -/
theorem C58_read {R H : Type} (rd : Reader R) (h : Hasher H) (hr : GoodReader rd)
    (hi : Incremental h) (h0 : h.update h.init [] = h.init) (r : R) (bufs : List (List UInt8)) :
    (readsFilter rd h (Filter.new h r) bufs).1 = (readsInner rd r bufs).1 ∧
    intoInner (readsFilter rd h (Filter.new h r) bufs).2 = (readsInner rd r bufs).2 ∧
    Filter.hash h (readsFilter rd h (Filter.new h r) bufs).2 =
      h.finalize (h.update h.init (bytesRead (readsInner rd r bufs).1)) := by
  obtain ⟨h1, h2, h3⟩ := reads_eq rd h hr hi bufs (Filter.new h r) [] h.init (by rw [h0]; rfl)
  exact ⟨h1, h2, by rw [Filter.hash, h3]; rfl⟩

/-- C58, writing. -/
theorem C58_write {W H : Type} (wr : Writer W) (h : Hasher H) (hr : GoodWriter wr)
    (hi : Incremental h) (h0 : h.update h.init [] = h.init) (w : W) (bufs : List (List UInt8)) :
    (writesFilter wr h (Filter.new h w) bufs).1 = (writesInner wr w bufs).1 ∧
    intoInner (writesFilter wr h (Filter.new h w) bufs).2 = (writesInner wr w bufs).2 ∧
    Filter.hash h (writesFilter wr h (Filter.new h w) bufs).2 =
      h.finalize (h.update h.init (bytesWritten (writesInner wr w bufs).1 bufs)) := by
  obtain ⟨h1, h2, h3⟩ := writes_eq wr h hr hi bufs (Filter.new h w) [] h.init (by rw [h0]; rfl)
  exact ⟨h1, h2, by rw [Filter.hash, h3]; rfl⟩

/-- An inner writer that breaks its contract makes the filter panic. -/
theorem C58_bad_writer {W H : Type} (wr : Writer W) (h : Hasher H) (w : W) (buf : List UInt8) (n : Nat)
    (hn : (wr w buf).1 = .ok n) (hl : buf.length < n) :
    (write wr h (Filter.new h w) buf).1 = .error (.panic .index) := by
  rw [write]
  rcases hw : wr (Filter.new h w).inner buf with ⟨res, w'⟩
  rw [show wr w buf = (res, w') from hw] at hn
  dsimp only at hn
  subst hn
  dsimp only
  rw [slice, if_neg (by omega)]

/-- A hash that just keeps the bytes, and a writer that accepts at most three bytes at a time and fails
every second time. -/
example : Incremental (⟨[], fun s b => s ++ b, id⟩ : Hasher (List UInt8)) ∧
    GoodWriter (fun (k : Nat) buf => (if k % 2 = 1 then .error (.err .sink)
      else .ok (min 3 buf.length), k + 1)) ∧
    (writesFilter (fun (k : Nat) buf => (if k % 2 = 1 then .error (.err .sink)
      else .ok (min 3 buf.length), k + 1)) ⟨[], fun s b => s ++ b, id⟩
      (Filter.new ⟨[], fun s b => s ++ b, id⟩ 0) [[1, 2, 3, 4], [4], [4]]).2.hash = [1, 2, 3, 4] := by
  refine ⟨fun s a b => List.append_assoc s a b, ?_, by decide⟩
  intro w buf n h
  dsimp only at h
  split at h
  · cases h
  · cases h; omega

end Rezip
