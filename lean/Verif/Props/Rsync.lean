import Verif.Props.Zero

/-!
# C93: what an edit does to the chunks

`zero` cuts the data where its content says so, so that a change in one place should leave most of the
chunks, and so most of the output file, as they were.
-/

namespace Rezip

open Rezip.Spec

/-- What one would like: one more byte makes at most `k` new chunks. -/
def EditClaim (k : Nat) : Prop :=
  ∀ (x y : List UInt8) (b : UInt8) (cs cs' : List (List UInt8)), Taken ((x ++ y).map .ok) cs →
    Taken ((x ++ b :: y).map .ok) cs' → (cs'.filter fun c => decide (c ∉ cs)).length ≤ k

theorem firstChunk_whole (c rest : List UInt8) (hl : c.length = 8192)
    (hs : (c.map UInt8.toNat).sum % 4096 = 0) : FirstChunk (c ++ rest) 8192 := by
  refine ⟨by rw [List.length_append]; omega, by omega, .inr (.inr ⟨Nat.le_refl _, ?_⟩), ?_⟩
  · unfold windowSum
    rw [← hl, List.take_left, Nat.sub_self, List.drop_zero]
    exact hs
  · intro L' hL hb
    have := hb.1
    omega

theorem chunks_repeat (c tail : List UInt8) (cs : List (List UInt8)) (n : Nat) (hl : c.length = 8192)
    (hs : (c.map UInt8.toNat).sum % 4096 = 0) (ht : Chunks tail cs) :
    Chunks ((List.replicate n c).flatten ++ tail) (List.replicate n c ++ cs) := by
  induction n with
  | zero => exact ht
  | succ n ih =>
    have e : (List.replicate (n + 1) c).flatten ++ tail = c ++ ((List.replicate n c).flatten ++ tail) := by
      rw [List.replicate_succ, List.flatten_cons, List.append_assoc]
    have h := Chunks.cons (c ++ ((List.replicate n c).flatten ++ tail)) 8192 (List.replicate n c ++ cs)
      (by intro h; have := congrArg List.length h; rw [List.length_append, hl, List.length_nil] at this; omega)
      (firstChunk_whole c _ hl hs)
      (by rw [← hl, List.drop_left]; exact ih)
    rw [← hl, List.take_left] at h
    rw [e, List.replicate_succ, List.cons_append]
    exact h

theorem rotate_repeat (a : UInt8) (r : List UInt8) (n : Nat) :
    a :: (List.replicate n (r ++ [a])).flatten = (List.replicate n (a :: r)).flatten ++ [a] := by
  induction n with
  | zero => rfl
  | succ n ih =>
    rw [List.replicate_succ, List.replicate_succ, List.flatten_cons, List.flatten_cons, List.append_assoc,
      List.append_assoc, ← ih]
    rfl

/-- 32 times 128 and then zeros. -/
def pulse (n : Nat) : List UInt8 := List.replicate 32 128 ++ List.replicate n 0

theorem pulse_sum (n : Nat) : ((pulse n).map UInt8.toNat).sum = 4096 := by
  unfold pulse
  rw [List.map_append, List.sum_append, List.map_replicate, List.map_replicate, List.sum_replicate_nat,
    List.sum_replicate_nat]
  simp

theorem pulse_length (n : Nat) : (pulse n).length = 32 + n := by
  unfold pulse
  rw [List.length_append, List.length_replicate, List.length_replicate]

theorem chunks_one (b : UInt8) : Chunks [b] [[b]] :=
  .cons [b] 1 [] (by simp) ⟨by simp, by omega, .inl rfl, by
      intro L' hL hb
      have := hb.1
      omega⟩ .nil

/-- C93, the negation: there is no such number. Data can be such that one byte inserted at the front makes
every chunk but the last a new one, no matter how many. -/
theorem C93_false (k : Nat) : ¬ EditClaim k := by
  intro h
  obtain ⟨m, hm⟩ : ∃ m : Nat, m = 8159 := ⟨_, rfl⟩
  have hsnoc : pulse m ++ [0] = pulse (m + 1) := by
    unfold pulse
    rw [List.append_assoc, ← List.replicate_succ']
  have c1 := chunks_repeat (pulse (m + 1)) [] [] (k + 1) (by rw [pulse_length]; omega) (by rw [pulse_sum]) .nil
  have c2 := chunks_repeat (0 :: pulse m) [0] [[0]] (k + 1) (by rw [List.length_cons, pulse_length]; omega)
    (by rw [List.map_cons, List.sum_cons, pulse_sum]; rfl)
    (chunks_one 0)
  rw [← rotate_repeat, hsnoc] at c2
  rw [List.append_nil, List.append_nil] at c1
  have := h [] (List.replicate (k + 1) (pulse (m + 1))).flatten 0 _ _ ((C59_are_chunks _ _).2 c1)
    ((C59_are_chunks _ _).2 c2)
  rw [List.filter_append, List.length_append, List.filter_eq_self.2, List.length_replicate] at this
  · omega
  · intro c hc
    rw [(List.mem_replicate.1 hc).2, decide_eq_true_eq]
    intro hm
    have := (List.mem_replicate.1 hm).2
    cases this

/-! ### Before the edit -/

/-- C93, before the edit: the chunks which end inside the common beginning (and are not the last) are the same. -/
theorem C93_before_partial (p a b : List UInt8) (cs rest : List (List UInt8)) (hr : rest ≠ [])
    (h : Taken ((p ++ a).map .ok) (cs ++ rest)) (hp : cs.flatten.length ≤ p.length) :
    ∃ rest', Taken ((p ++ b).map .ok) (cs ++ rest') := by
  rw [C59_are_chunks] at h
  suffices hc : ∃ rest', Chunks (p ++ b) (cs ++ rest') by
    obtain ⟨r, hc⟩ := hc
    exact ⟨r, (C59_are_chunks _ _).2 hc⟩
  induction cs generalizing p with
  | nil =>
    obtain ⟨r, hr, _⟩ := taken_chunks (p ++ b)
    exact ⟨r, hr⟩
  | cons c cs ih =>
    generalize hd : p ++ a = d at h
    rw [List.cons_append] at h
    cases h with
    | cons _ L _ hne hf hcs =>
      subst hd
      have hl := hf.1
      have hlen : ((p ++ a).take L).length = L := by rw [List.length_take]; omega
      have hLp : L ≤ p.length := by
        rw [List.flatten_cons, List.length_append, hlen] at hp
        omega
      have hlt : L < (p ++ a).length := by
        apply Decidable.byContradiction
        intro hn
        rw [List.drop_eq_nil_of_le (by omega)] at hcs
        generalize hcr : cs ++ rest = q at hcs
        cases hcs with
        | nil => exact hr (List.append_eq_nil_iff.1 hcr).2
        | cons _ _ _ h => exact h rfl
      have hf2 := C60_local (p ++ a) (p.drop L ++ b) L hf hlt
      rw [List.take_append_of_le_length hLp, ← List.append_assoc, List.take_append_drop] at hf2
      rw [List.drop_append_of_le_length hLp] at hcs
      obtain ⟨r, hrr⟩ := ih (p.drop L) hcs (by
        rw [List.flatten_cons, List.length_append, hlen] at hp
        rw [List.length_drop]
        omega)
      refine ⟨r, ?_⟩
      have := Chunks.cons (p ++ b) L (cs ++ r) (by
        intro h0
        have hpos := hf.pos hne
        have := congrArg List.length h0
        rw [List.length_append, List.length_nil] at this
        omega) hf2 (by rw [List.drop_append_of_le_length hLp]; exact hrr)
      rw [List.take_append_of_le_length hLp] at this ⊢
      exact this

/-- A chunk followed by one byte in one file and by two others in the other. -/
example (n : Nat) (hn : n = 8160) : ∃ rest', Taken ((pulse n ++ [2, 3]).map .ok) ([pulse n] ++ rest') := by
  have hl := pulse_length n
  refine C93_before_partial (pulse n) [1] [2, 3] [pulse n] [[1]] (by simp) ?_ (by simp)
  rw [C59_are_chunks]
  have := chunks_repeat (pulse n) [1] [[1]] 1 (by omega) (by rw [pulse_sum]) (chunks_one 1)
  simpa using this

/-! ### After the edit -/

theorem Spec.Chunks.after {d : List UInt8} {cs ds : List (List UInt8)} (h : Chunks d (cs ++ ds)) :
    Chunks (d.drop cs.flatten.length) ds := by
  induction cs generalizing d with
  | nil => exact h
  | cons c cs ih =>
    rw [List.cons_append] at h
    cases h with
    | cons _ L _ hne hf hcs =>
      have := ih hcs
      rw [List.drop_drop] at this
      rw [List.flatten_cons, List.length_append, List.length_take, Nat.min_eq_left hf.1]
      exact this

theorem Spec.Chunks.unique {d : List UInt8} {a b : List (List UInt8)} (ha : Chunks d a) (hb : Chunks d b) : a = b :=
  ((C59_are_chunks d a).2 ha).unique ((C59_are_chunks d b).2 hb)

/-- C93, after the edit: if both are cut at the same place of the common end, all later chunks are the same. -/
theorem C93_after_partial (x y t₁ t₂ : List UInt8) (cs₁ cs₂ ds₁ ds₂ : List (List UInt8))
    (h : Taken ((x ++ (t₁ ++ t₂)).map .ok) (cs₁ ++ cs₂)) (h' : Taken ((y ++ (t₁ ++ t₂)).map .ok) (ds₁ ++ ds₂))
    (hc : cs₁.flatten = x ++ t₁) (hd : ds₁.flatten = y ++ t₁) : cs₂ = ds₂ := by
  have a := ((C59_are_chunks _ _).1 h).after
  have b := ((C59_are_chunks _ _).1 h').after
  rw [hc, ← List.append_assoc, List.drop_left] at a
  rw [hd, ← List.append_assoc, List.drop_left] at b
  exact a.unique b

/-- One chunk of one file and two of the other, and then the same byte. -/
example (n : Nat) (hn : n = 8160) (ds : List (List UInt8))
    (h : Taken ((pulse n ++ (pulse n ++ [7])).map .ok) ([pulse n, pulse n] ++ ds)) : ds = [[7]] := by
  have hl := pulse_length n
  have := chunks_repeat (pulse n) [7] [[7]] 1 (by omega) (by rw [pulse_sum]) (chunks_one 7)
  refine C93_after_partial (pulse n ++ pulse n) (pulse n) [] [7] [pulse n, pulse n] ds [pulse n] [[7]] (by simpa using h)
    ((C59_are_chunks _ _).2 (by simpa using this)) (by simp) (by simp)

theorem windowSum_drop (d : List UInt8) (s L : Nat) (hL : 8192 ≤ L) : windowSum (d.drop s) L = windowSum d (s + L) := by
  unfold windowSum
  rw [List.take_drop, List.drop_drop, show s + (L - 8192) = s + L - 8192 by omega]

theorem boundary_drop (d : List UInt8) (s L : Nat) (hL : 8192 ≤ L) :
    Boundary (d.drop s) L ↔ Boundary d (s + L) := by
  unfold Boundary
  rw [windowSum_drop d s L hL]
  constructor <;> rintro ⟨_, h⟩ <;> exact ⟨by omega, h⟩

theorem cut_at {d : List UInt8} {P Q : Nat} (hP : Boundary d P) (hQ : Boundary d Q) (h1 : P + 8192 ≤ Q)
    (h2 : Q ≤ P + 57345) (hno : ∀ q, P < q → q < Q → ¬ Boundary d q) (hl : Q ≤ d.length) (s : Nat) (hs : s ≤ P)
    (cs : List (List UInt8)) (h : Chunks (d.drop s) cs) :
    ∃ cs₁ cs₂, cs = cs₁ ++ cs₂ ∧ cs₁.flatten = (d.drop s).take (Q - s) := by
  induction hn : cs.length generalizing s cs with
  | zero =>
    rw [List.length_eq_zero_iff.1 hn] at h
    have := congrArg List.length h.facts.1
    rw [List.flatten_nil, List.length_drop, List.length_nil] at this
    omega
  | succ n ih =>
    generalize he : d.drop s = e at h
    cases h with
    | nil => cases hn
    | cons _ L cs hne hf hcs =>
      subst he
      by_cases hL : s + L ≤ P
      · rw [List.drop_drop] at hcs
        obtain ⟨c1, c2, e1, e2⟩ := ih (s + L) hL cs hcs (by simpa using hn)
        refine ⟨(d.drop s).take L :: c1, c2, by rw [e1]; rfl, ?_⟩
        rw [List.flatten_cons, e2, ← List.drop_drop]
        rw [show Q - s = L + (Q - (s + L)) by omega, List.take_add]
      · have hshort : P < s + 8192 := by
          apply Decidable.byContradiction
          intro hge
          refine hf.2.2.2 (P - s) (by omega) ?_
          rw [boundary_drop _ _ _ (by omega), show s + (P - s) = P by omega]
          exact hP
        have hF : FirstChunk (d.drop s) (Q - s) := by
          refine ⟨by rw [List.length_drop]; omega, by omega, .inr (.inr ?_), ?_⟩
          · rw [boundary_drop _ _ _ (by omega), show s + (Q - s) = Q by omega]
            exact hQ
          · intro L' hL' hb
            have := hb.1
            rw [boundary_drop _ _ _ this] at hb
            exact hno (s + L') (by omega) (by omega) hb
        obtain rfl := C60_unique _ _ _ hf hF
        exact ⟨[_], cs, rfl, by simp⟩

/-- C93, after the edit: what is enough for that. If in the common end `t` two content boundaries `p` and `q`
are between 8192 and 57345 bytes apart and there is none between them, every data ending in `t` is cut at `q`, no
matter what is before `t`, and so all chunks from there on are the same. -/
theorem C93_resync_partial (x y t : List UInt8) (p q : Nat) (hp : Boundary t p) (hq : Boundary t q)
    (h1 : p + 8192 ≤ q) (h2 : q ≤ p + 57345) (hno : ∀ r, p < r → r < q → ¬ Boundary t r) (hl : q ≤ t.length)
    (cs ds : List (List UInt8)) (h : Taken ((x ++ t).map .ok) cs) (h' : Taken ((y ++ t).map .ok) ds) :
    ∃ cs₁ ds₁ es, cs = cs₁ ++ es ∧ ds = ds₁ ++ es ∧ cs₁.flatten = x ++ t.take q ∧
      ds₁.flatten = y ++ t.take q ∧ es.flatten = t.drop q := by
  have key : ∀ (z : List UInt8) (bs : List (List UInt8)), Taken ((z ++ t).map .ok) bs →
      ∃ bs₁ bs₂, bs = bs₁ ++ bs₂ ∧ bs₁.flatten = z ++ t.take q := by
    intro z bs hb
    have tr : ∀ r, 8192 ≤ r → (Boundary (z ++ t) (z.length + r) ↔ Boundary t r) := by
      intro r hr
      rw [← boundary_drop _ _ _ hr, List.drop_left]
    obtain ⟨b1, b2, e1, e2⟩ := cut_at (d := z ++ t) (P := z.length + p) (Q := z.length + q)
      ((tr p hp.1).2 hp) ((tr q hq.1).2 hq) (by omega) (by omega) (by
        intro r hr1 hr2 hb
        have := hp.1
        obtain ⟨r', rfl⟩ : ∃ r', r = z.length + r' := ⟨r - z.length, by omega⟩
        exact hno r' (by omega) (by omega) ((tr r' (by omega)).1 hb))
      (by rw [List.length_append]; omega) 0 (by omega) bs ((C59_are_chunks _ _).1 hb)
    refine ⟨b1, b2, e1, ?_⟩
    rw [e2, List.drop_zero, Nat.sub_zero, List.take_length_add_append]
  obtain ⟨cs₁, cs₂, rfl, e1⟩ := key x cs h
  obtain ⟨ds₁, ds₂, rfl, e2⟩ := key y ds h'
  have e : t.take q ++ t.drop q = t := List.take_append_drop _ _
  have : cs₂ = ds₂ := by
    rw [← e] at h h'
    exact C93_after_partial x y (t.take q) (t.drop q) cs₁ cs₂ ds₁ ds₂ h h' e1 e2
  subst this
  refine ⟨cs₁, ds₁, cs₂, rfl, rfl, e1, e2, ?_⟩
  have := ((C59_are_chunks _ _).1 h).facts.1
  rw [List.flatten_append, e1, List.append_assoc] at this
  have := List.append_cancel_left this
  have h3 : t.take q ++ cs₂.flatten = t.take q ++ t.drop q := by rw [e]; exact this
  exact List.append_cancel_left h3

/-- The hypotheses can be met: zeros, a one, and zeros. The only sums divisible by 4096 are those before the one
came in and after it went out. -/
theorem resync_example (n : Nat) (hn : n = 8192) :
    let t : List UInt8 := List.replicate n 0 ++ 1 :: List.replicate n 0
    Boundary t n ∧ Boundary t (2 * n + 1) ∧ (∀ r, n < r → r < 2 * n + 1 → ¬ Boundary t r) ∧
      2 * n + 1 ≤ t.length := by
  have e : ∀ r, n < r → r < 2 * n + 1 →
      windowSum (List.replicate n 0 ++ 1 :: List.replicate n 0) r = 1 := by
    intro r h1 h2
    unfold windowSum
    rw [← hn, List.take_append, List.take_of_length_le (by simp; omega), List.length_replicate,
      show r - n = (r - n - 1) + 1 by omega, List.take_succ_cons, List.take_replicate, List.drop_append,
      List.drop_replicate, List.length_replicate, show r - n - 1 + 1 - n = 0 by omega, List.drop_zero]
    simp
  refine ⟨⟨by omega, ?_⟩, ⟨by omega, ?_⟩, ?_, ?_⟩
  · unfold windowSum
    rw [← hn, List.take_append_of_le_length (by simp)]
    simp
  · unfold windowSum
    rw [← hn, List.take_of_length_le (by simp; omega), show 2 * n + 1 - n = n + 1 by omega, List.drop_append,
      List.drop_eq_nil_of_le (by simp)]
    simp
  · intro r h1 h2 hb
    have := hb.2
    rw [e r h1 h2] at this
    omega
  · simp
    omega

example (x y : List UInt8) (cs ds : List (List UInt8))
    (h : Taken ((x ++ (List.replicate 8192 0 ++ 1 :: List.replicate 8192 0)).map .ok) cs)
    (h' : Taken ((y ++ (List.replicate 8192 0 ++ 1 :: List.replicate 8192 0)).map .ok) ds) :
    ∃ cs₁ ds₁ es, cs = cs₁ ++ es ∧ ds = ds₁ ++ es := by
  obtain ⟨b1, b2, b3, b4⟩ := resync_example 8192 rfl
  obtain ⟨a, b, c, e1, e2, _⟩ := C93_resync_partial x y _ 8192 (2 * 8192 + 1) b1 b2 (by omega) (by omega) b3 b4 cs ds
    h h'
  exact ⟨a, b, c, e1, e2⟩

end Rezip
