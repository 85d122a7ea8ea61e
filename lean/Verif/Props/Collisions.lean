import Verif.Model.Collisions
import Verif.Props.Guess

/-!
# C103: the table of collisions
-/

namespace Rezip

open Rezip.Spec

namespace Collisions

/-! ### Lists -/

theorem length_le_of_subset {α : Type} [BEq α] [LawfulBEq α] {l m : List α} (hn : l.Nodup) (h : ∀ x ∈ l, x ∈ m) :
    l.length ≤ m.length := by
  induction l generalizing m with
  | nil => simp
  | cons a l ih =>
    obtain ⟨hna, hn⟩ := List.nodup_cons.1 hn
    have := ih (m := m.erase a) hn fun x hx => by
      rw [List.mem_erase_of_ne (by rintro rfl; exact hna hx)]
      exact h x (List.mem_cons_of_mem _ hx)
    rw [List.length_erase_of_mem (h a List.mem_cons_self)] at this
    have := List.length_pos_of_mem (h a List.mem_cons_self)
    simp only [List.length_cons]
    omega

theorem nodup_perm {α : Type} [BEq α] [LawfulBEq α] {l m : List α} (hl : l.Nodup) (hm : m.Nodup)
    (h : ∀ x, x ∈ l ↔ x ∈ m) : List.Perm l m :=
  (List.perm_ext_iff_of_nodup hl hm).2 h

/-! ### Building the map -/

/-- The map holds exactly the triples `ts`. -/
structure Holds (hash : Triple → Nat) (ts : List Triple) (m : Map) : Prop where
  keys : (m.map Prod.fst).Nodup
  sets : ∀ e ∈ m, e.2 ≠ [] ∧ e.2.Nodup ∧ ∀ t, t ∈ e.2 ↔ t ∈ ts ∧ hash t = e.1
  all : ∀ t ∈ ts, ∃ e ∈ m, e.1 = hash t

theorem mem_insertSet {t u : Triple} {s : List Triple} : u ∈ insertSet t s ↔ u = t ∨ u ∈ s := by
  unfold insertSet
  split
  · exact ⟨.inr, fun h => h.elim (by rintro rfl; assumption) id⟩
  · simp [or_comm]

theorem nodup_insertSet {t : Triple} {s : List Triple} (h : s.Nodup) : (insertSet t s).Nodup := by
  unfold insertSet
  split
  · exact h
  · rename_i hn
    rw [List.nodup_append]
    refine ⟨h, by simp, ?_⟩
    intro a ha b hb
    rw [List.mem_singleton] at hb
    subst hb
    rintro rfl
    exact hn ha

theorem insert_keys (h : Nat) (t : Triple) (m : Map) :
    (insert h t m).map Prod.fst = if h ∈ m.map Prod.fst then m.map Prod.fst else m.map Prod.fst ++ [h] := by
  induction m with
  | nil => simp [insert]
  | cons e m ih =>
    obtain ⟨k, s⟩ := e
    rw [insert]
    by_cases hk : k = h
    · subst hk; simp
    · rw [if_neg hk, List.map_cons, ih]
      by_cases hm : h ∈ m.map Prod.fst
      · rw [if_pos hm, if_pos (by rw [List.map_cons]; exact List.mem_cons_of_mem _ hm)]
        rfl
      · rw [if_neg hm, if_neg (by rw [List.map_cons, List.mem_cons]; exact fun h1 => h1.elim (fun h2 => hk h2.symm) hm)]
        rfl

/-- An entry after `insert`. -/
theorem mem_insert {h : Nat} {t : Triple} {m : Map} (hn : (m.map Prod.fst).Nodup) {e : Nat × List Triple}
    (he : e ∈ insert h t m) :
    (e ∈ m ∧ e.1 ≠ h) ∨ (e.1 = h ∧ ∃ s, e.2 = insertSet t s ∧ ((h, s) ∈ m ∨ (s = [] ∧ h ∉ m.map Prod.fst))) := by
  induction m with
  | nil =>
    rw [insert, List.mem_singleton] at he
    subst he
    exact .inr ⟨rfl, [], rfl, .inr ⟨rfl, by simp⟩⟩
  | cons e' m ih =>
    obtain ⟨k, s⟩ := e'
    rw [List.map_cons, List.nodup_cons] at hn
    rw [insert] at he
    by_cases hk : k = h
    · subst hk
      rw [if_pos rfl] at he
      rcases List.mem_cons.1 he with rfl | he
      · exact .inr ⟨rfl, s, rfl, .inl (by simp)⟩
      · refine .inl ⟨List.mem_cons_of_mem _ he, ?_⟩
        intro hek
        exact hn.1 (by show k ∈ _; rw [← hek]; exact List.mem_map_of_mem (f := Prod.fst) he)
    · rw [if_neg hk] at he
      rcases List.mem_cons.1 he with rfl | he
      · exact .inl ⟨List.mem_cons_self, hk⟩
      · rcases ih hn.2 he with ⟨h1, h2⟩ | ⟨h1, s', h2, h3⟩
        · exact .inl ⟨List.mem_cons_of_mem _ h1, h2⟩
        · refine .inr ⟨h1, s', h2, ?_⟩
          rcases h3 with h3 | ⟨rfl, h3⟩
          · exact .inl (List.mem_cons_of_mem _ h3)
          · refine .inr ⟨rfl, ?_⟩
            rw [List.map_cons, List.mem_cons]
            exact fun h4 => h4.elim (fun h5 => hk h5.symm) h3

theorem Holds.insert {hash : Triple → Nat} {ts : List Triple} {m : Map} (h : Holds hash ts m) (t : Triple) :
    Holds hash (ts ++ [t]) (insert (hash t) t m) := by
  have hk := insert_keys (hash t) t m
  refine ⟨?_, ?_, ?_⟩
  · rw [hk]
    split
    · exact h.keys
    · rename_i hn
      rw [List.nodup_append]
      refine ⟨h.keys, by simp, ?_⟩
      intro a ha b hb
      rw [List.mem_singleton] at hb
      subst hb
      rintro rfl
      exact hn ha
  · intro e he
    rcases mem_insert h.keys he with ⟨h1, h2⟩ | ⟨h1, s, h2, h3⟩
    · obtain ⟨a, b, c⟩ := h.sets e h1
      refine ⟨a, b, fun u => ?_⟩
      rw [c u, List.mem_append, List.mem_singleton]
      constructor
      · rintro ⟨x, y⟩; exact ⟨.inl x, y⟩
      · rintro ⟨x | rfl, y⟩
        · exact ⟨x, y⟩
        · exact absurd y.symm h2
    · rw [h1, h2]
      refine ⟨?_, ?_, fun u => ?_⟩
      · exact List.ne_nil_of_mem (mem_insertSet.2 (.inl rfl))
      · apply nodup_insertSet
        rcases h3 with h3 | ⟨rfl, _⟩
        · exact (h.sets _ h3).2.1
        · exact List.nodup_nil
      · have hs : u ∈ s ↔ u ∈ ts ∧ hash u = hash t := by
          rcases h3 with h3 | ⟨rfl, h4⟩
          · exact (h.sets _ h3).2.2 u
          · constructor
            · intro hu; cases hu
            · rintro ⟨hu, hu2⟩
              obtain ⟨e', he', he2⟩ := h.all u hu
              exact absurd (List.mem_map_of_mem (f := Prod.fst) he') (by rw [he2, hu2]; exact h4)
        rw [mem_insertSet, hs, List.mem_append, List.mem_singleton]
        constructor
        · rintro (rfl | ⟨x, y⟩)
          · exact ⟨.inr rfl, rfl⟩
          · exact ⟨.inl x, y⟩
        · rintro ⟨x | rfl, y⟩
          · exact .inr ⟨x, y⟩
          · exact .inl rfl
  · intro u hu
    have : hash u ∈ (Collisions.insert (hash t) t m).map Prod.fst := by
      rw [hk]
      rw [List.mem_append, List.mem_singleton] at hu
      rcases hu with hu | rfl
      · obtain ⟨e, he, he2⟩ := h.all u hu
        have := List.mem_map_of_mem (f := Prod.fst) he
        rw [he2] at this
        split
        · exact this
        · exact List.mem_append.2 (.inl this)
      · split
        · assumption
        · simp
    obtain ⟨e, he, he2⟩ := List.mem_map.1 this
    exact ⟨e, he, he2⟩

theorem Holds.foldl {hash : Triple → Nat} (us : List Triple) {ts : List Triple} {m : Map} (h : Holds hash ts m) :
    Holds hash (ts ++ us) (us.foldl (fun m t => Collisions.insert (hash t) t m) m) := by
  induction us generalizing ts m with
  | nil => simpa using h
  | cons t us ih =>
    have := ih (h.insert t)
    rwa [List.append_assoc] at this

end Collisions

/-- All triples of visible bytes, in order. -/
def visibleTriples : List (UInt8 × UInt8 × UInt8) :=
  Collisions.visible.flatMap fun a => Collisions.visible.flatMap fun b => Collisions.visible.map fun c => (a, b, c)

namespace Collisions

/-- The hash of a triple. -/
def hashOf (t : Triple) : Nat := gzipHash t.1 t.2.1 t.2.2

theorem build_eq : build = visibleTriples.foldl (fun m t => insert (hashOf t) t m) [] := by
  have key : ∀ v : List UInt8,
      v.foldl (fun map a => v.foldl (fun map b => v.foldl (fun map c =>
        insert (Key.mk a b c).hash16 (a, b, c) map) map) map) [] =
      (v.flatMap fun a => v.flatMap fun b => v.map fun c => (a, b, c)).foldl
        (fun m t => insert (hashOf t) t m) [] := by
    intro v
    simp only [List.foldl_flatMap, List.foldl_map, C67_hash, hashOf]
  exact key visible

theorem build_holds : Holds hashOf visibleTriples build := by
  rw [build_eq]
  have : Holds hashOf [] [] := ⟨List.nodup_nil, by simp, by simp⟩
  simpa using this.foldl visibleTriples

theorem mem_visible {b : UInt8} : b ∈ visible ↔ 32 ≤ b.toNat ∧ b.toNat ≤ 126 := by
  unfold visible
  rw [List.mem_map]
  constructor
  · rintro ⟨i, hi, rfl⟩
    rw [List.mem_range] at hi
    simp only [Nat.toUInt8, UInt8.toNat_ofNat']
    omega
  · rintro ⟨h1, h2⟩
    refine ⟨b.toNat - 32, List.mem_range.2 (by omega), ?_⟩
    rw [show 32 + (b.toNat - 32) = b.toNat by omega]
    exact UInt8.ofNat_toNat

theorem mem_visibleTriples {t : Triple} : t ∈ visibleTriples ↔ t.1 ∈ visible ∧ t.2.1 ∈ visible ∧ t.2.2 ∈ visible := by
  obtain ⟨a, b, c⟩ := t
  unfold visibleTriples
  simp only [List.mem_flatMap, List.mem_map, Prod.mk.injEq]
  constructor
  · rintro ⟨x, hx, y, hy, z, hz, rfl, rfl, rfl⟩; exact ⟨hx, hy, hz⟩
  · rintro ⟨hx, hy, hz⟩; exact ⟨a, hx, b, hy, c, hz, rfl, rfl, rfl⟩

theorem visible_sorted : visible.Pairwise fun a b => a.toNat < b.toNat := by decide +kernel

/-- The order of triples. -/
def Less (t u : Triple) : Prop :=
  t.1.toNat < u.1.toNat ∨ (t.1 = u.1 ∧ (t.2.1.toNat < u.2.1.toNat ∨ (t.2.1 = u.2.1 ∧ t.2.2.toNat < u.2.2.toNat)))

theorem visibleTriples_sorted : visibleTriples.Pairwise Less := by
  have key : ∀ v : List UInt8, v.Pairwise (fun a b => a.toNat < b.toNat) →
      (v.flatMap fun a => v.flatMap fun b => v.map fun c => (a, b, c)).Pairwise Less := by
    intro v hv
    rw [List.pairwise_flatMap]
    refine ⟨fun a _ => ?_, hv.imp fun hab x hx y hy => ?_⟩
    · rw [List.pairwise_flatMap]
      refine ⟨fun b _ => ?_, hv.imp fun hbc x hx y hy => ?_⟩
      · rw [List.pairwise_map]
        exact hv.imp fun h => .inr ⟨rfl, .inr ⟨rfl, h⟩⟩
      · obtain ⟨c, _, rfl⟩ := List.mem_map.1 hx
        obtain ⟨d, _, rfl⟩ := List.mem_map.1 hy
        exact .inr ⟨rfl, .inl hbc⟩
    · obtain ⟨b, _, hx⟩ := List.mem_flatMap.1 hx
      obtain ⟨c, _, hy⟩ := List.mem_flatMap.1 hy
      obtain ⟨_, _, rfl⟩ := List.mem_map.1 hx
      obtain ⟨_, _, rfl⟩ := List.mem_map.1 hy
      exact .inl hab
  exact key visible visible_sorted

theorem Less.ne {t u : Triple} (h : Less t u) : t ≠ u := by
  rintro rfl
  rcases h with h | ⟨_, h | ⟨_, h⟩⟩ <;> omega

theorem visibleTriples_nodup : visibleTriples.Nodup :=
  visibleTriples_sorted.imp fun h => h.ne

/-- The triples with this hash. -/
def bucket (h : Nat) : List Triple := visibleTriples.filter fun t => hashOf t = h

theorem mem_bucket {h : Nat} {t : Triple} : t ∈ bucket h ↔ t ∈ visibleTriples ∧ hashOf t = h := by
  simp [bucket]

theorem bucket_nodup (h : Nat) : (bucket h).Nodup := visibleTriples_nodup.filter _

theorem bucket_le (h : Nat) : (bucket h).length ≤ 27 := by
  have hn : ((bucket h).map fun t => (t.1.toNat / 32, t.2.1.toNat / 32, t.2.2.toNat / 32)).Nodup := by
    rw [List.nodup_iff_pairwise_ne, List.pairwise_map]
    have := (List.nodup_iff_pairwise_ne.1 (bucket_nodup h))
    refine List.Pairwise.imp_of_mem (fun {t u} ht hu hne heq => hne ?_) this
    obtain ⟨a, b, c⟩ := t
    obtain ⟨a', b', c'⟩ := u
    obtain ⟨_, h1⟩ := mem_bucket.1 ht
    obtain ⟨_, h2⟩ := mem_bucket.1 hu
    obtain ⟨d1, d2, d3⟩ := hash_digits a b c
    obtain ⟨e1, e2, e3⟩ := hash_digits a' b' c'
    simp only [hashOf] at h1 h2
    simp only [Prod.mk.injEq] at heq
    obtain ⟨q1, q2, q3⟩ := heq
    rw [h1] at d1 d2 d3
    rw [h2] at e1 e2 e3
    have hc : c = c' := UInt8.toNat_inj.1 (by omega)
    subst hc
    have hb : b.toNat % 32 = b'.toNat % 32 := by
      have := congrArg (· ^^^ (c.toNat / 32)) (d2.symm.trans e2)
      simpa [Nat.xor_assoc] using this
    have hb : b = b' := UInt8.toNat_inj.1 (by omega)
    subst hb
    have ha : a.toNat % 32 = a'.toNat % 32 := by
      have := congrArg (· ^^^ (b.toNat / 32)) (d3.symm.trans e3)
      simpa [Nat.xor_assoc] using this
    have ha : a = a' := UInt8.toNat_inj.1 (by omega)
    rw [ha]
  have := length_le_of_subset (m := [1, 2, 3].flatMap fun a => [1, 2, 3].flatMap fun b => [1, 2, 3].map fun c => (a, b, c)) hn ?_
  · simpa using this
  · intro x hx
    obtain ⟨t, ht, rfl⟩ := List.mem_map.1 hx
    obtain ⟨h1, h2, h3⟩ := mem_visibleTriples.1 (mem_bucket.1 ht).1
    have key : ∀ b ∈ visible, b.toNat / 32 = 1 ∨ b.toNat / 32 = 2 ∨ b.toNat / 32 = 3 := by
      intro b hb
      have := mem_visible.1 hb
      omega
    have k1 := key _ h1
    have k2 := key _ h2
    have k3 := key _ h3
    simp only [List.mem_flatMap, List.mem_map]
    exact ⟨_, by simpa using k1, _, by simpa using k2, _, by simpa using k3, rfl⟩

theorem le_bucket (h : Nat) (hh : h < 32768) : 8 ≤ (bucket h).length := by
  let f : Nat × Nat × Nat → Triple := fun q =>
    ((32 * q.1 + ((h / 1024) ^^^ q.2.1)).toUInt8, (32 * q.2.1 + ((h / 32 % 32) ^^^ q.2.2)).toUInt8,
      (32 * q.2.2 + h % 32).toUInt8)
  have hx : ∀ x q : Nat, x < 32 → q < 32 → x ^^^ q < 32 := fun x q h1 h2 => Nat.xor_lt_two_pow (n := 5) h1 h2
  have hf : ∀ q ∈ [1, 2].flatMap (fun a => [1, 2].flatMap fun b => [1, 2].map fun c => ((a, b, c) : Nat × Nat × Nat)),
      ∃ a b c, f q = (a, b, c) ∧ a.toNat = 32 * q.1 + ((h / 1024) ^^^ q.2.1) ∧
        b.toNat = 32 * q.2.1 + ((h / 32 % 32) ^^^ q.2.2) ∧ c.toNat = 32 * q.2.2 + h % 32 ∧
        (q.1 = 1 ∨ q.1 = 2) ∧ (q.2.1 = 1 ∨ q.2.1 = 2) ∧ (q.2.2 = 1 ∨ q.2.2 = 2) := by
    intro q hq
    have hq' : (q.1 = 1 ∨ q.1 = 2) ∧ (q.2.1 = 1 ∨ q.2.1 = 2) ∧ (q.2.2 = 1 ∨ q.2.2 = 2) := by
      simp only [List.mem_flatMap, List.mem_map] at hq
      obtain ⟨a, ha, b, hb, c, hc, rfl⟩ := hq
      simp at ha hb hc
      exact ⟨ha, hb, hc⟩
    have x1 := hx (h / 1024) q.2.1 (by omega) (by omega)
    have x2 := hx (h / 32 % 32) q.2.2 (by omega) (by omega)
    refine ⟨_, _, _, rfl, ?_, ?_, ?_, hq'⟩ <;> simp only [Nat.toUInt8, UInt8.toNat_ofNat'] <;> omega
  have hlen : ((([1, 2].flatMap (fun a => [1, 2].flatMap fun b => [1, 2].map fun c => ((a, b, c) : Nat × Nat × Nat)))).map f).length ≤ (bucket h).length := by
    apply length_le_of_subset
    · rw [List.nodup_iff_pairwise_ne, List.pairwise_map]
      have hd : ([1, 2].flatMap (fun a => [1, 2].flatMap fun b => [1, 2].map fun c =>
        ((a, b, c) : Nat × Nat × Nat))).Pairwise (· ≠ ·) := by decide
      refine List.Pairwise.imp_of_mem (fun {t u} ht hu hne heq => hne ?_) hd
      · obtain ⟨a, b, c, e1, e2, e3, e4, e5, e6, e7⟩ := hf t ht
        obtain ⟨a', b', c', g1, g2, g3, g4, g5, g6, g7⟩ := hf u hu
        rw [e1, g1] at heq
        cases heq
        have x1 := hx (h / 1024) t.2.1 (by omega) (by omega)
        have x2 := hx (h / 32 % 32) t.2.2 (by omega) (by omega)
        have y1 := hx (h / 1024) u.2.1 (by omega) (by omega)
        have y2 := hx (h / 32 % 32) u.2.2 (by omega) (by omega)
        obtain ⟨t1, t2, t3⟩ := t
        obtain ⟨u1, u2, u3⟩ := u
        dsimp only at *
        have : t1 = u1 := by omega
        have : t2 = u2 := by omega
        have : t3 = u3 := by omega
        simp [*]
    · intro x hx'
      obtain ⟨q, hq, rfl⟩ := List.mem_map.1 hx'
      obtain ⟨a, b, c, e1, e2, e3, e4, e5, e6, e7⟩ := hf q hq
      have x1 := hx (h / 1024) q.2.1 (by omega) (by omega)
      have x2 := hx (h / 32 % 32) q.2.2 (by omega) (by omega)
      rw [e1, mem_bucket, mem_visibleTriples, mem_visible, mem_visible, mem_visible]
      refine ⟨⟨by dsimp only; omega, by dsimp only; omega, by dsimp only; omega⟩, ?_⟩
      obtain ⟨d1, d2, d3⟩ := hash_digits a b c
      have m1 : c.toNat % 32 = h % 32 := by omega
      have m2 : c.toNat / 32 = q.2.2 := by omega
      have m3 : b.toNat % 32 = (h / 32 % 32) ^^^ q.2.2 := by omega
      have m4 : b.toNat / 32 = q.2.1 := by omega
      have m5 : a.toNat % 32 = (h / 1024) ^^^ q.2.1 := by omega
      rw [m1] at d1
      rw [m3, m2, Nat.xor_assoc, Nat.xor_self, Nat.xor_zero] at d2
      rw [m5, m4, Nat.xor_assoc, Nat.xor_self, Nat.xor_zero] at d3
      show gzipHash a b c = h
      omega
  simpa using hlen

/-! ### The lines -/

theorem toNat_inj {a b : Char} (h : a.toNat = b.toNat) : a = b := by
  rw [← Char.ofNat_toNat a, h, Char.ofNat_toNat]

theorem textLe_total (a b : List Char) : textLe a b || textLe b a := by
  induction a generalizing b with
  | nil => rfl
  | cons x a ih =>
    cases b with
    | nil => rfl
    | cons y b =>
      have := ih b
      simp only [textLe, Bool.or_eq_true, Bool.and_eq_true, decide_eq_true_eq, beq_iff_eq] at this ⊢
      rcases Nat.lt_trichotomy x.toNat y.toNat with h | h | h
      · exact .inl (.inl h)
      · exact this.elim (fun h2 => .inl (.inr ⟨h, h2⟩)) fun h2 => .inr (.inr ⟨h.symm, h2⟩)
      · exact .inr (.inl h)

theorem textLe_trans (a b c : List Char) (h1 : textLe a b) (h2 : textLe b c) : textLe a c := by
  induction a generalizing b c with
  | nil => rfl
  | cons x a ih =>
    cases b with
    | nil => cases h1
    | cons y b =>
      cases c with
      | nil => cases h2
      | cons z c =>
        have := ih b c
        simp only [textLe, Bool.or_eq_true, Bool.and_eq_true, decide_eq_true_eq, beq_iff_eq] at h1 h2 ⊢
        rcases h1 with h1 | ⟨h1, h3⟩ <;> rcases h2 with h2 | ⟨h2, h4⟩
        · omega
        · omega
        · omega
        · exact .inr ⟨by omega, this h3 h4⟩

theorem textLe_antisymm (a b : List Char) (h1 : textLe a b) (h2 : textLe b a) : a = b := by
  induction a generalizing b with
  | nil =>
    cases b with
    | nil => rfl
    | cons => cases h2
  | cons x a ih =>
    cases b with
    | nil => cases h1
    | cons y b =>
      simp only [textLe, Bool.or_eq_true, Bool.and_eq_true, decide_eq_true_eq, beq_iff_eq] at h1 h2
      rcases h1 with h1 | ⟨h1, h3⟩
      · omega
      · rcases h2 with h2 | ⟨h2, h4⟩
        · omega
        · rw [toNat_inj h1, ih b h3 h4]

theorem place_perm (p : List Char) (qs : List (List Char)) : (place p qs).Perm (p :: qs) := by
  induction qs with
  | nil => exact .refl _
  | cons q qs ih =>
    rw [place]
    split
    · exact .refl _
    · exact (ih.cons q).trans (.swap _ _ _)

theorem sort_perm (ps : List (List Char)) : (sort ps).Perm ps := by
  induction ps with
  | nil => exact .refl _
  | cons p ps ih => exact (place_perm p _).trans (ih.cons p)

theorem place_sorted (p : List Char) (qs : List (List Char)) (h : qs.Pairwise fun a b => textLe a b = true) :
    (place p qs).Pairwise fun a b => textLe a b = true := by
  induction qs with
  | nil => simp [place]
  | cons q qs ih =>
    obtain ⟨h1, h2⟩ := List.pairwise_cons.1 h
    rw [place]
    split
    · rename_i hle
      refine List.pairwise_cons.2 ⟨fun x hx => ?_, h⟩
      rcases List.mem_cons.1 hx with rfl | hx
      · exact hle
      · exact textLe_trans _ _ _ hle (h1 x hx)
    · rename_i hle
      refine List.pairwise_cons.2 ⟨fun x hx => ?_, ih h2⟩
      rcases List.mem_cons.1 ((place_perm p qs).mem_iff.1 hx) with rfl | hx
      · have := textLe_total q x
        rw [Bool.or_eq_true] at this
        exact this.elim id fun h => absurd h hle
      · exact h1 x hx

theorem sort_sorted (ps : List (List Char)) : (sort ps).Pairwise fun a b => textLe a b = true := by
  induction ps with
  | nil => exact .nil
  | cons p ps ih => exact place_sorted p _ ih

theorem char_toNat (b : UInt8) : (Char.ofNat b.toNat).toNat = b.toNat := by
  have : ∀ b : Fin 256, (Char.ofNat b.val).toNat = b.val := by decide +kernel
  exact this ⟨b.toNat, b.toNat_lt⟩

theorem text_sorted (h : Nat) : ((bucket h).map text).Pairwise fun a b => textLe a b = true := by
  rw [List.pairwise_map]
  refine (visibleTriples_sorted.filter _).imp fun {t u} hl => ?_
  simp only [text, textLe, char_toNat, Bool.or_eq_true, Bool.and_eq_true, decide_eq_true_eq, beq_iff_eq]
  rcases hl with hl | ⟨h1, hl | ⟨h2, hl⟩⟩
  · exact .inl hl
  · exact .inr ⟨by rw [h1], .inl hl⟩
  · exact .inr ⟨by rw [h1], .inr ⟨by rw [h2], .inl hl⟩⟩

theorem join_eq (ps : List (List Char)) : join ps = ", ".toList.intercalate ps := by
  induction ps with
  | nil => rfl
  | cons p ps ih =>
    cases ps with
    | nil => simp [join, List.intercalate]
    | cons q ps =>
      rw [join, ih]
      simp [List.intercalate]

theorem line_eq {iter : List Triple → List Triple} (hi : ∀ s, (iter s).Perm s) {h : Nat} {s : List Triple}
    (hs : s.Perm (bucket h)) (hl : 8 ≤ (bucket h).length) :
    line iter s = some (Render.decimal (bucket h).length ++ " ".toList ++ ", ".toList.intercalate ((bucket h).map text)) := by
  have hp : ((iter s).map text).Perm ((bucket h).map text) := ((hi s).trans hs).map _
  have hlen : ((iter s).map text).length = (bucket h).length := by rw [hp.length_eq, List.length_map]
  have hof : onlyFirst ((iter s).map text) = false := by
    generalize (iter s).map text = ps at hlen
    match ps with
    | [] => rfl
    | [_] => rfl
    | [_, _] => simp at hlen; omega
    | _ :: _ :: _ :: _ => rfl
  unfold line
  rw [if_neg (by rw [hs.length_eq]; omega)]
  dsimp only
  rw [hof, if_neg Bool.false_ne_true, hlen, join_eq]
  congr 3
  refine List.Perm.eq_of_pairwise (le := fun a b => textLe a b = true) (fun a b _ _ => textLe_antisymm a b) ?_
    (text_sorted h) ((sort_perm _).trans hp)
  exact sort_sorted _

end Collisions

/-- C103: the table has one line for each of the 32768 hashes, in some order. The line has the number of visible
triples with that hash, and the triples in ascending order, in whatever order the map and the sets are
iterated. -/
theorem C103_table (iterMap : Collisions.Map → Collisions.Map)
    (iterSet : List Collisions.Triple → List Collisions.Triple) (hm : ∀ m, (iterMap m).Perm m)
    (hs : ∀ s, (iterSet s).Perm s) :
    ∃ hashes : List Nat, hashes.Perm (List.range 32768) ∧
      Collisions.run iterMap iterSet = hashes.map fun h =>
        let ts := visibleTriples.filter fun t => gzipHash t.1 t.2.1 t.2.2 = h
        Render.decimal ts.length ++ " ".toList ++ ", ".toList.intercalate
          (ts.map fun t => [Char.ofNat t.1.toNat, Char.ofNat t.2.1.toNat, Char.ofNat t.2.2.toNat]) := by
  unfold Collisions.run
  have hb := Collisions.build_holds
  have hp := hm Collisions.build
  generalize Collisions.build = map at hb hp
  have hlt : ∀ e ∈ map, e.1 < 32768 := by
    intro e he
    obtain ⟨h1, h2, h3⟩ := hb.sets e he
    obtain ⟨t, ht⟩ := List.exists_mem_of_ne_nil _ h1
    rw [← ((h3 t).1 ht).2]
    exact Nat.mod_lt _ (by omega)
  refine ⟨(iterMap map).map Prod.fst, (hp.map _).trans ?_, ?_⟩
  · refine Collisions.nodup_perm hb.keys List.nodup_range fun h => ?_
    rw [List.mem_map, List.mem_range]
    constructor
    · rintro ⟨e, he, rfl⟩
      exact hlt e he
    · intro hh
      have := Collisions.le_bucket h hh
      obtain ⟨t, ht⟩ := List.exists_mem_of_length_pos (l := Collisions.bucket h) (by omega)
      obtain ⟨h1, h2⟩ := Collisions.mem_bucket.1 ht
      obtain ⟨e, he, he2⟩ := hb.all t h1
      exact ⟨e, he, he2.trans h2⟩
  · have key : ∀ l : Collisions.Map, (∀ e ∈ l, e ∈ map) →
        (l.filterMap fun entry => Collisions.line iterSet entry.2) = (l.map Prod.fst).map fun h =>
          Render.decimal (Collisions.bucket h).length ++ " ".toList ++
            ", ".toList.intercalate ((Collisions.bucket h).map Collisions.text) := by
      intro l hl
      induction l with
      | nil => rfl
      | cons e l ih =>
        have he := hl e List.mem_cons_self
        obtain ⟨_, h2, h3⟩ := hb.sets e he
        have hpe : e.2.Perm (Collisions.bucket e.1) :=
          Collisions.nodup_perm h2 (Collisions.bucket_nodup _) fun t => (h3 t).trans Collisions.mem_bucket.symm
        rw [List.filterMap_cons, Collisions.line_eq hs hpe (Collisions.le_bucket _ (hlt e he))]
        dsimp only
        rw [ih fun e he => hl e (List.mem_cons_of_mem _ he)]
        rfl
    exact key _ fun e he => hp.mem_iff.1 he

/-- C103: each line has 8 to 27 triples, so that neither of the two tests that leave out a line ever does. -/
theorem C103_count (h : Nat) (hh : h < 32768) :
    8 ≤ (visibleTriples.filter fun t => gzipHash t.1 t.2.1 t.2.2 = h).length ∧
      (visibleTriples.filter fun t => gzipHash t.1 t.2.1 t.2.2 = h).length ≤ 27 :=
  ⟨Collisions.le_bucket h hh, Collisions.bucket_le h⟩

/-- The code on a few triples: "aaa" and "Aaa" have the same hash; they are left out of this smaller table. -/
example :
    let map := ([(97, 97, 97), (65, 97, 97), (98, 98, 98), (65, 97, 97), (98, 99, 66), (66, 98, 98)] :
      List Collisions.Triple).foldl (fun m t => Collisions.insert (Key.mk t.1 t.2.1 t.2.2).hash16 t m) []
    map.map Prod.fst = [2113, 1058] ∧
      map.filterMap (fun e => Collisions.line List.reverse e.2) =
        ["3 Bbb, bbb, bcB".toList] := by
  decide +kernel

open Collisions in
/-- C103: of any set of triples, not only those that occur, the line is left out exactly when it has a single
triple, or two that differ in the first byte only. -/
theorem C103_left_out (iterSet : List Collisions.Triple → List Collisions.Triple)
    (hs : ∀ s, (iterSet s).Perm s) (set : List Collisions.Triple) :
    Collisions.line iterSet set = none ↔
      (∃ t, set = [t]) ∨ ∃ a a' b c, set = [(a, b, c), (a', b, c)] := by
  have inj : ∀ x y : UInt8, Char.ofNat x.toNat = Char.ofNat y.toNat ↔ x = y := by
    intro x y
    refine ⟨fun h => ?_, fun h => by rw [h]⟩
    have v : ∀ z : UInt8, (Char.ofNat z.toNat).toNat = z.toNat := fun z => by
      have hv : Nat.isValidChar z.toNat := .inl (by have := z.toNat_lt; omega)
      simp only [Char.ofNat, hv, dite_true]
      rfl
    have := congrArg Char.toNat h
    rw [v, v] at this
    exact UInt8.toNat.inj this
  have hp := hs set
  unfold Collisions.line
  match set, hp with
  | [], hp => rw [hp.eq_nil]; simp [onlyFirst]
  | [t], hp => simp
  | [t, u], hp =>
    have h2 : onlyFirst ((iterSet [t, u]).map text) = true ↔ t.2 = u.2 := by
      have hl := hp.length_eq
      match iterSet [t, u], hl, hp with
      | [p, q], _, hp =>
        have hpq : (p = t ∧ q = u) ∨ (p = u ∧ q = t) := by
          have hp1 : p ∈ [t, u] := hp.mem_iff.1 (by simp)
          rcases List.mem_cons.1 hp1 with rfl | h
          · left
            have := (List.perm_cons _).1 hp
            exact ⟨rfl, by simpa using this⟩
          · right
            have h' : p = u := by simpa using h
            subst h'
            have := (List.perm_cons _).1 (hp.trans (List.Perm.swap p t []))
            exact ⟨rfl, by simpa using this⟩
        have key : ∀ x y : Collisions.Triple, (onlyFirst [text x, text y] = true ↔ x.2 = y.2) := by
          intro x y
          simp [onlyFirst, text, inj, Prod.ext_iff]
        rcases hpq with ⟨rfl, rfl⟩ | ⟨rfl, rfl⟩
        · exact key _ _
        · exact (key _ _).trans eq_comm
    dsimp only
    rw [if_neg (by simp)]
    obtain ⟨a, b, c⟩ := t
    obtain ⟨a', b', c'⟩ := u
    split
    · rename_i h
      have := h2.1 h
      simp only [Prod.mk.injEq] at this
      obtain ⟨rfl, rfl⟩ := this
      exact ⟨fun _ => .inr ⟨a, a', b, c, rfl⟩, fun _ => rfl⟩
    · rename_i h
      refine ⟨fun h => absurd h (by simp), ?_⟩
      rintro (⟨t, h'⟩ | ⟨x, x', y, z, h'⟩)
      · simp at h'
      · refine absurd (h2.2 ?_) h
        simp only [List.cons.injEq, Prod.mk.injEq] at h'
        obtain ⟨⟨_, rfl, rfl⟩, ⟨_, rfl, rfl⟩, _⟩ := h'
        rfl
  | t :: u :: v :: w, hp =>
    have hl := hp.length_eq
    have : onlyFirst ((iterSet (t :: u :: v :: w)).map text) = false := by
      match iterSet (t :: u :: v :: w), hl with
      | _ :: _ :: _ :: _, _ => rfl
    simp [this]

/-- Triples that differ in the first byte only, and others. -/
example : Collisions.line List.reverse [(97, 98, 99), (65, 98, 99)] = none ∧
    (Collisions.line List.reverse [(97, 98, 99), (97, 98, 67)]).isSome ∧
    (Collisions.line List.reverse [(97, 98, 99), (65, 98, 99), (66, 98, 99)]).isSome := by decide +kernel

end Rezip
