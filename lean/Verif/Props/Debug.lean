import Verif.Model.Debug
import Verif.Lemmas.AllRefs
import Verif.Lemmas.CodeTree
import Verif.Lemmas.BitVector
import Verif.Props.AllRefs
import Verif.Props.Dump

/-!
# C99: the text of a code tree; C100: the text of the index; C101: the text of a key; C102: printed bits
-/

namespace Rezip

open Spec Render

namespace Render

/-- The byte of an escaped character. -/
def unescape : List Char → Nat
  | [c] => c.toNat
  | ['\\', '0'] => 0
  | ['\\', 't'] => 9
  | ['\\', 'n'] => 10
  | ['\\', 'r'] => 13
  | ['\\', '\''] => 39
  | ['\\', '\\'] => 92
  | _ :: _ :: _ :: ds => ds.foldl (fun n c => if c = '}' then n else 16 * n + (if c.isDigit then c.toNat - 48 else c.toNat - 87)) 0
  | _ => 0

theorem escape_facts : ∀ b : Fin 256, unescape (escapeDebug (UInt8.ofNat b)) = b ∧
    (b.val ≠ 39 → '\'' ∉ escapeDebug (UInt8.ofNat b)) ∧ escapeDebug (UInt8.ofNat b) ≠ ['\\'] ∧
    '\n' ∉ escapeDebug (UInt8.ofNat b) := by
  decide +kernel

theorem escape_fact (b : UInt8) : unescape (escapeDebug b) = b.toNat ∧
    (b ≠ 39 → '\'' ∉ escapeDebug b) ∧ escapeDebug b ≠ ['\\'] ∧ '\n' ∉ escapeDebug b := by
  have := escape_facts ⟨b.toNat, b.toNat_lt⟩
  simp only [UInt8.ofNat_toNat] at this
  refine ⟨this.1, fun h => this.2.1 fun h' => h (UInt8.toNat_inj.1 h'), this.2.2⟩

theorem charDebug_unambiguous : Unambiguous charDebug := by
  have key : ∀ a b x y, b ≠ 39 → charDebug a ++ x = charDebug b ++ y → a = b ∧ x = y := by
    intro a b x y hb h
    have hb' := (escape_fact b).2.1 hb
    simp only [charDebug, List.cons_append, List.append_assoc, List.nil_append, List.cons.injEq, true_and] at h
    by_cases ha : a = 39
    · subst ha
      have h' : ['\\'] ++ '\'' :: ('\'' :: x) = escapeDebug b ++ '\'' :: y := h
      exact absurd (cut (by decide) hb' h').1.symm (escape_fact b).2.2.1
    · obtain ⟨h1, h2⟩ := cut ((escape_fact a).2.1 ha) hb' h
      have := (escape_fact a).1
      rw [h1, (escape_fact b).1] at this
      exact ⟨(UInt8.toNat_inj.1 this).symm, h2⟩
  intro a b x y h
  by_cases hb : b = 39
  · by_cases ha : a = 39
    · subst ha hb
      exact ⟨rfl, List.append_cancel_left h⟩
    · obtain ⟨h1, h2⟩ := key b a y x ha h.symm
      exact ⟨h1.symm, h2.symm⟩
  · exact key a b x y hb h

theorem newline_charDebug (b : UInt8) : '\n' ∉ charDebug b := by
  simp [charDebug, (escape_fact b).2.2.2]

end Render

/-! ### C99 -/

/-- A line of the text: the code, the symbol. -/
def treeLine (l : List Bool × Nat) : List Char :=
  l.1.map (fun b => if b then '1' else '0') ++ " => ".toList ++ CodeTree.symbolText l.2 ++ "\n".toList

/-- `c` comes before `c'`, and neither is the beginning of the other: at the first difference, `c` has a 0. -/
def Before (c c' : List Bool) : Prop := ∃ p x y, c = p ++ false :: x ∧ c' = p ++ true :: y

namespace CodeTree

/-- The leaves in order, with their codes. -/
def codeLines (pre : List Bool) : Node → List (List Bool × Nat)
  | .leaf s => [(pre, s)]
  | .internal l r => codeLines (pre ++ [false]) l ++ codeLines (pre ++ [true]) r

theorem nodeText_eq (pre : List Bool) (n : Node) :
    nodeText (pre.map fun b => if b then '1' else '0') n = (codeLines pre n).flatMap treeLine := by
  induction n generalizing pre with
  | leaf s => simp [nodeText, codeLines, treeLine]
  | internal l r hl hr =>
    have h0 := hl (pre ++ [false])
    have h1 := hr (pre ++ [true])
    simp only [List.map_append, List.map_cons, List.map_nil, if_true, Bool.false_eq_true, if_false] at h0 h1
    rw [nodeText, codeLines, List.flatMap_append, ← h0, ← h1]

theorem debug_eq (t : CodeTree) : t.debug = (codeLines [] (.internal t.left t.right)).flatMap treeLine := by
  have := nodeText_eq [] (.internal t.left t.right)
  simpa [debug, nodeText] using this

theorem mem_codeLines (pre c : List Bool) (s : Nat) (n : Node) :
    (c, s) ∈ codeLines pre n ↔ ∃ q, c = pre ++ q ∧ n.sub q = some (.leaf s) := by
  induction n generalizing pre with
  | leaf x =>
    simp only [codeLines, List.mem_singleton, Prod.mk.injEq]
    constructor
    · rintro ⟨rfl, rfl⟩; exact ⟨[], by simp, rfl⟩
    · rintro ⟨q, rfl, h⟩
      cases q with
      | nil => simpa [Node.sub, eq_comm] using h
      | cons b q => simp [Node.sub] at h
  | internal l r hl hr =>
    rw [codeLines, List.mem_append, hl, hr]
    constructor
    · rintro (⟨q, rfl, h⟩ | ⟨q, rfl, h⟩)
      · exact ⟨false :: q, by simp, by simpa [Node.sub] using h⟩
      · exact ⟨true :: q, by simp, by simpa [Node.sub] using h⟩
    · rintro ⟨q, rfl, h⟩
      match q with
      | [] => simp [Node.sub] at h
      | false :: q => exact .inl ⟨q, by simp, by simpa [Node.sub] using h⟩
      | true :: q => exact .inr ⟨q, by simp, by simpa [Node.sub] using h⟩

theorem codeLines_before (pre : List Bool) (n : Node) : (codeLines pre n).Pairwise fun a b => Before a.1 b.1 := by
  induction n generalizing pre with
  | leaf s => simp [codeLines]
  | internal l r hl hr =>
    rw [codeLines, List.pairwise_append]
    refine ⟨hl _, hr _, fun a ha b hb => ?_⟩
    obtain ⟨q, h1, _⟩ := (mem_codeLines _ a.1 a.2 l).1 ha
    obtain ⟨q', h2, _⟩ := (mem_codeLines _ b.1 b.2 r).1 hb
    exact ⟨pre, q, q', by simp [h1], by simp [h2]⟩

theorem eq_of_sub (n n' : Node) (h : ∀ q s, n.sub q = some (.leaf s) ↔ n'.sub q = some (.leaf s)) : n = n' := by
  induction n generalizing n' with
  | leaf s =>
    have := (h [] s).1 rfl
    simpa [Node.sub, eq_comm] using this
  | internal l r hl hr =>
    cases n' with
    | leaf s =>
      have := (h [] s).2 rfl
      simp [Node.sub] at this
    | internal l' r' =>
      rw [hl l' fun q s => by simpa [Node.sub] using h (false :: q) s,
        hr r' fun q s => by simpa [Node.sub] using h (true :: q) s]

theorem symbolText_inj {s s' : Nat} (h : symbolText s = symbolText s') : s = s' := by
  have hb : ∀ {s}, s ≤ 255 → symbolText s = '0' :: 'x' :: (hex2 s.toUInt8 ++ ' ' :: charDebug s.toUInt8) := by
    intro s hs
    rw [symbolText, if_pos hs]
    simp
  have hd : ∀ {s}, 256 < s → symbolText s = 'd' :: ':' :: decimal (s - 256) := by
    intro s hs
    rw [symbolText, if_neg (by omega), if_neg (by omega)]
    simp
  have he : symbolText 256 = ['E', 'o', 'S'] := by decide
  have cases3 : ∀ s : Nat, s ≤ 255 ∨ s = 256 ∨ 256 < s := by omega
  obtain h1 | rfl | h1 := cases3 s <;> obtain h2 | rfl | h2 := cases3 s'
  · rw [hb h1, hb h2] at h
    simp only [List.cons.injEq, true_and] at h
    have h3 := congrArg UInt8.toNat (hex2_inj h).1
    simp only [Nat.toUInt8_eq, UInt8.toNat_ofNat'] at h3
    omega
  · rw [hb h1, he] at h; simp at h
  · rw [hb h1, hd h2] at h; simp at h
  · rw [he, hb h2] at h; simp at h
  · rfl
  · rw [he, hd h2] at h; simp at h
  · rw [hd h1, hb h2] at h; simp at h
  · rw [hd h1, he] at h; simp at h
  · rw [hd h1, hd h2] at h
    simp only [List.cons.injEq, true_and] at h
    have := decimal_inj h
    omega

theorem newline_symbolText (s : Nat) : '\n' ∉ symbolText s := by
  unfold symbolText
  split
  · have h2 : '\n' ∉ hex2 s.toUInt8 := by
      have : ∀ n, n < 16 → '\n' ≠ Nat.digitChar n := by decide
      have hb := s.toUInt8.toNat_lt
      simp only [hex2, List.mem_cons, List.not_mem_nil, or_false, not_or]
      exact ⟨this _ (by omega), this _ (by omega)⟩
    simp [h2, newline_charDebug]
  · split
    · decide
    · simp [not_mem_decimal (c := '\n') (by decide)]

theorem bits_inj {a b : List Bool} (h : a.map (fun b => if b then '1' else '0') = b.map fun b => if b then '1' else '0') :
    a = b := by
  refine List.map_inj_right (f := fun b : Bool => if b then '1' else '0') ?_ |>.1 h
  decide

theorem lines_inj {a b : List (List Bool × Nat)} (h : a.flatMap treeLine = b.flatMap treeLine) : a = b := by
  have hsp : ∀ c : List Bool, ' ' ∉ c.map fun b => if b then '1' else '0' := by
    intro c hc
    obtain ⟨b, _, hb⟩ := List.mem_map.1 hc
    cases b <;> simp at hb
  have hline : ∀ l : List Bool × Nat, ∀ rest, treeLine l ++ rest = l.1.map (fun b => if b then '1' else '0') ++
      ' ' :: ('=' :: '>' :: ' ' :: (symbolText l.2 ++ '\n' :: rest)) := by
    intro l rest
    simp [treeLine]
  induction a generalizing b with
  | nil =>
    cases b with
    | nil => rfl
    | cons l b => simp [treeLine] at h
  | cons k a ih =>
    cases b with
    | nil => simp [treeLine] at h
    | cons l b =>
      rw [List.flatMap_cons, List.flatMap_cons, hline, hline] at h
      obtain ⟨h1, h2⟩ := cut (hsp _) (hsp _) h
      simp only [List.cons.injEq, true_and] at h2
      obtain ⟨h3, h4⟩ := cut (newline_symbolText _) (newline_symbolText _) h2
      rw [ih h4, Prod.ext (bits_inj h1) (symbolText_inj h3)]

end CodeTree

/-- C99: the text of the tree made from code lengths has one line for each used symbol, with its canonical
code (RFC 1951, 3.2.2), in the order of the codes. -/
theorem C99_canonical (lens : List Nat) (hl : lens.length ≤ 65536) (h15 : ∀ l ∈ lens, l ≤ 15) (t : CodeTree)
    (ht : CodeTree.new lens = .ok t) :
    ∃ lines : List (List Bool × Nat), t.debug = lines.flatMap treeLine ∧
      (∀ c s, (c, s) ∈ lines ↔ codeOf lens s = some c) ∧ lines.Pairwise fun a b => Before a.1 b.1 := by
  refine ⟨_, t.debug_eq, fun c s => ?_, CodeTree.codeLines_before _ _⟩
  rw [CodeTree.mem_codeLines, ← CodeTree.sub_leaf_iff hl h15 ht]
  simp

/-- C99: trees with the same text are the same. -/
theorem C99_faithful (t t' : CodeTree) (h : t.debug = t'.debug) : t = t' := by
  rw [t.debug_eq, t'.debug_eq] at h
  have := CodeTree.lines_inj h
  have hn : Node.internal t.left t.right = .internal t'.left t'.right := by
    refine CodeTree.eq_of_sub _ _ fun q s => ?_
    have h1 := CodeTree.mem_codeLines [] q s (.internal t.left t.right)
    have h2 := CodeTree.mem_codeLines [] q s (.internal t'.left t'.right)
    rw [this] at h1
    simpa using h1.symm.trans h2
  cases t
  cases t'
  simpa using hn

example : CodeTree.new [2, 0, 3, 3, 1] = .ok ⟨.leaf 4, .internal (.leaf 0) (.internal (.leaf 2) (.leaf 3))⟩ ∧
    (CodeTree.mk (.leaf 4) (.internal (.leaf 0) (.internal (.leaf 2) (.leaf 3)))).debug =
      "0 => 0x04 '\\u{4}'\n10 => 0x00 '\\0'\n110 => 0x02 '\\u{2}'\n111 => 0x03 '\\u{3}'\n".toList ∧
    (CodeTree.mk (.leaf 97) (.internal (.leaf 256) (.leaf 260))).debug =
      "0 => 0x61 'a'\n10 => EoS\n11 => d:4\n".toList := by decide +kernel

/-! ### C100 -/

/-- The line of a hash: nothing if there is no position, else the positions. -/
def indexLine (hash : Nat) (positions : List Nat) : List Char :=
  if positions = [] then []
  else " - ".toList ++ hex4 hash ++ ": [".toList ++ ", ".toList.intercalate (positions.map decimal) ++ "]\n".toList

theorem listTail_eq {α : Type} (f : α → List Char) (x : α) (xs : List α) :
    f x ++ listTail f xs = ", ".toList.intercalate ((x :: xs).map f) ++ "]".toList := by
  induction xs generalizing x with
  | nil => simp [listTail, List.intercalate]
  | cons y ys ih =>
    rw [listTail, List.append_assoc, ih y]
    simp [List.intercalate]

theorem debugVals_eq (p : List Nat) (fuel c : Nat) (hc : c ≠ 0) :
    BackMap.debugVals p fuel c = BackMap.chain p fuel (some c) := by
  induction fuel generalizing c with
  | zero => rfl
  | succ fuel ih =>
    rw [BackMap.debugVals, BackMap.chain]
    cases index p c with
    | error e => rfl
    | ok next =>
      rw [Ex.ok_bind, Ex.ok_bind]
      by_cases h0 : next = 0
      · rw [if_pos h0.symm, if_pos h0]
        cases fuel <;> rfl
      · rw [if_neg (Ne.symm h0), if_neg h0, ih _ h0]

/-- The positions after the first with this hash, ascending. -/
def indexed (w : List UInt8) (hash : Nat) : List Nat :=
  (List.range (w.length - 2)).filter fun j => decide (0 < j) && hashesTo w hash j

theorem debugLoop_eq {w : List UInt8} {t : BackMap} (h : BackMap.Upto w (w.length - 2) t) (hashes : List Nat) :
    t.debugLoop hashes = .ok (hashes.flatMap fun hash => indexLine hash (indexed w hash)) := by
  induction hashes with
  | nil => rfl
  | cons hash hashes ih =>
    have hl := BackMap.latestFirst_last (hashesTo w hash) (w.length - 2)
    have hi : indexed w hash = (latestFirst (fun j => decide (0 < j) && hashesTo w hash j) (w.length - 2)).reverse := by
      simp [indexed, latestFirst]
    rw [BackMap.debugLoop, h.heads, List.flatMap_cons]
    by_cases h0 : BackMap.last (hashesTo w hash) (w.length - 2) = 0
    · rw [if_neg (by simpa using h0.symm), ih]
      rw [if_pos h0] at hl
      rw [hi, hl]
      rfl
    · have hlen : 0 < w.length - 2 := by
        apply Decidable.byContradiction
        intro hn
        rw [show w.length - 2 = 0 by omega] at h0
        exact h0 rfl
      have hlt := BackMap.last_lt (hashesTo w hash) hlen
      rw [if_pos (Ne.symm h0), debugVals_eq _ _ _ h0,
        BackMap.chain_ok h hash _ _ (by rw [h.len]; omega) (by omega) (BackMap.last_sat _ h0), Ex.ok_bind, ih, Ex.ok_bind]
      rw [if_neg h0] at hl
      rw [hi, hl]
      have hne : (latestFirst (fun j => decide (0 < j) && hashesTo w hash j)
          (BackMap.last (hashesTo w hash) (w.length - 2) + 1)).reverse ≠ [] := by
        intro hnil
        have : BackMap.last (hashesTo w hash) (w.length - 2) ∈ latestFirst (fun j => decide (0 < j) && hashesTo w hash j)
          (BackMap.last (hashesTo w hash) (w.length - 2) + 1) :=
          mem_latestFirst.2 ⟨by omega, by simp [BackMap.last_sat _ h0]; omega⟩
        rw [List.reverse_eq_nil_iff] at hnil
        rw [hnil] at this
        cases this
      generalize (latestFirst (fun j => decide (0 < j) && hashesTo w hash j)
          (BackMap.last (hashesTo w hash) (w.length - 2) + 1)).reverse = vals at hne ⊢
      rw [indexLine, if_neg hne]
      cases vals with
      | nil => exact absurd rfl hne
      | cons x xs =>
        rw [Render.list, List.append_assoc "[".toList, listTail_eq]
        show Except.ok _ = Except.ok _
        congr 1
        simp

/-- C100: the text of the index has a line for each hash that occurs after the first position, in the order of
the hashes, and the line has all positions with that hash, ascending, but for position 0, which is never
shown. -/
theorem C100_text (preroll data : List UInt8) (limit : Nat) :
    ∃ (a : AllRefs) (positions : Nat → List Nat), AllRefs.withSixteen preroll data limit = .ok a ∧
      a.debug = .ok ((List.range 32768).flatMap (fun hash => indexLine hash (positions hash)) ++ ['\n']) ∧
      ∀ hash, (positions hash).Pairwise (· < ·) ∧
        ∀ j, j ∈ positions hash ↔ 0 < j ∧ ∃ k, threeAt (preroll ++ data) j = some k ∧ k.hash16 = hash := by
  obtain ⟨a, h1, h2, h3, h4, h5⟩ := AllRefs.withSixteen_ok preroll data limit
  refine ⟨a, indexed (preroll ++ data), h1, ?_, fun hash => ⟨?_, fun j => ?_⟩⟩
  · have hw : a.win = preroll ++ data := by rw [AllRefs.win, h2, h3]
    have hb : BackMap.Upto (preroll ++ data) ((preroll ++ data).length - 2) a.map := by rw [← hw]; exact h5
    rw [AllRefs.debug, BackMap.debug, debugLoop_eq hb]
    generalize (List.range 32768).flatMap _ = x
    rfl
  · exact List.Pairwise.filter _ List.pairwise_lt_range
  · unfold indexed
    simp only [List.mem_filter, List.mem_range, Bool.and_eq_true, decide_eq_true_eq]
    unfold hashesTo
    constructor
    · rintro ⟨h6, h7, h8⟩
      refine ⟨h7, ?_⟩
      split at h8
      · exact ⟨_, by assumption, by simpa using h8⟩
      · cases h8
    · rintro ⟨h6, k, h7, h8⟩
      have := BackMap.threeAt_lt h7
      refine ⟨by omega, h6, ?_⟩
      rw [h7]
      simpa using h8

/-- "aaaaab": the hash of "aaa" is that of positions 0, 1 and 2. -/
example : (do let t ← BackMap.fromWindow [0x61] [0x61, 0x61, 0x61, 0x61, 0x62]; t.debugLoop [0x841, 0x842, 0x843]) =
    .ok " - 0841: [1, 2]\n - 0842: [3]\n".toList := by decide +kernel

/-- The number a lower case hexadecimal digit stands for. -/
def hexDigit (c : Char) : Option Nat :=
  "0123456789abcdef".toList.findIdx? (· == c)

/-- C100: the hash is shown as the four digits of the hexadecimal number. -/
theorem C100_hash (hash : Nat) (h : hash < 32768) :
    ∃ a b c d, (hex4 hash).map hexDigit = [some a, some b, some c, some d] ∧
      hash = 4096 * a + 256 * b + 16 * c + d := by
  have hd : ∀ k : Fin 16, hexDigit (Nat.digitChar k.val) = some k.val := by decide +kernel
  have hd' : ∀ k, k < 16 → hexDigit (Nat.digitChar k) = some k := fun k hk => hd ⟨k, hk⟩
  refine ⟨hash / 4096, hash / 256 % 16, hash / 16 % 16, hash % 16, ?_, by omega⟩
  unfold hex4
  simp only [List.map_cons, List.map_nil]
  rw [hd' _ (by omega), hd' _ (by omega), hd' _ (by omega), hd' _ (by omega)]

example : hex4 0x0a3f = "0a3f".toList ∧ 0x0a3f < 32768 := by decide +kernel

/-! ### C101 -/

/-- C101: the text of a key tells the key, whatever follows it. -/
theorem C101_unambiguous : Unambiguous Key.debug := by
  have hchar : ∀ a b : UInt8, Char.ofNat a.toNat = Char.ofNat b.toNat → a = b := by
    have : ∀ b : Fin 256, (Char.ofNat b.val).toNat = b.val := by decide +kernel
    intro a b h
    have ha := this ⟨a.toNat, a.toNat_lt⟩
    have hb := this ⟨b.toNat, b.toNat_lt⟩
    dsimp only at ha hb
    rw [h, hb] at ha
    exact (UInt8.toNat_inj.1 ha).symm
  rintro ⟨a0, a1, a2⟩ ⟨b0, b1, b2⟩ x y h
  unfold Key.debug at h
  dsimp only at h
  split at h <;> split at h
  · simp only [List.cons_append, List.nil_append, List.cons.injEq, true_and] at h
    obtain ⟨h0, h1, h2, h3⟩ := h
    exact ⟨by rw [hchar _ _ h0, hchar _ _ h1, hchar _ _ h2], h3⟩
  · simp [charDebug] at h
  · simp [charDebug] at h
  · simp only [List.append_assoc] at h
    obtain ⟨h0, h⟩ := charDebug_unambiguous _ _ _ _ h
    obtain ⟨h1, h⟩ := charDebug_unambiguous _ _ _ _ h
    obtain ⟨h2, h⟩ := charDebug_unambiguous _ _ _ _ h
    exact ⟨by rw [h0, h1, h2], h⟩

/-- C101: text is quoted as a whole exactly if all three bytes are printable ASCII other than the space. -/
theorem C101_form (k : Key) :
    k.debug = (if ∀ b ∈ [k.b0, k.b1, k.b2], 0x20 < b ∧ b < 0x7f then
        '"' :: [k.b0, k.b1, k.b2].map (fun b => Char.ofNat b.toNat) ++ ['"']
      else [k.b0, k.b1, k.b2].flatMap charDebug) := by
  have hn : ∀ b : UInt8, Key.normalChar b = true ↔ 0x20 < b ∧ b < 0x7f := by
    intro b
    simp only [Key.normalChar, Bool.and_eq_true, decide_eq_true_eq, UInt8.le_iff_toNat_le, UInt8.lt_iff_toNat_lt]
    simp only [UInt8.reduceToNat]
    omega
  unfold Key.debug
  by_cases h : ∀ b ∈ [k.b0, k.b1, k.b2], 0x20 < b ∧ b < 0x7f
  · rw [if_pos h, if_pos]
    · rfl
    · simp only [Bool.and_eq_true]
      exact ⟨⟨(hn _).2 (h _ (by simp)), (hn _).2 (h _ (by simp))⟩, (hn _).2 (h _ (by simp))⟩
  · rw [if_neg h, if_neg]
    · simp
    · intro hc
      simp only [Bool.and_eq_true] at hc
      apply h
      intro b hb
      simp only [List.mem_cons, List.not_mem_nil, or_false] at hb
      obtain rfl | rfl | rfl := hb
      · exact (hn _).1 hc.1.1
      · exact (hn _).1 hc.1.2
      · exact (hn _).1 hc.2

example : Key.debug ⟨0x61, 0x22, 0x27⟩ = "\"a\"'\"".toList ∧ Key.debug ⟨0x61, 0x0a, 0x27⟩ = "'a''\\n''\\''".toList := by
  decide +kernel

/-! ### C102 -/

namespace BitVector

theorem drain_cases {fuel : Nat} {it : StackIterator} {bits : List Bool} (h : it.drain fuel = .ok bits) :
    (bits = [] ∧ StackIterator.next it = .ok none it) ∨
      ∃ b bs it' fuel', bits = b :: bs ∧ StackIterator.next it = .ok (some b) it' ∧ it'.drain fuel' = .ok bs := by
  cases fuel with
  | zero => cases h
  | succ fuel =>
    rw [StackIterator.drain] at h
    cases hx : StackIterator.next it with
    | error e s => rw [hx] at h; cases h
    | ok o s =>
      rw [hx] at h
      cases o with
      | none =>
        cases h
        refine .inl ⟨rfl, ?_⟩
        unfold StackIterator.next at hx
        split at hx
        · split at hx
          · cases hx; rfl
          · cases hx
        · split at hx <;> cases hx
      | some b =>
        dsimp only at h
        obtain ⟨bs, h1, h2⟩ := Ex.bind_eq_ok.1 h
        cases h2
        exact .inr ⟨b, bs, s, fuel, rfl, rfl, h1⟩

theorem drain_length (fuel : Nat) (it : StackIterator) (bits : List Bool) (h : it.drain fuel = .ok bits) :
    bits.length < fuel := by
  induction fuel generalizing it bits with
  | zero => cases h
  | succ fuel ih =>
    rw [StackIterator.drain] at h
    split at h
    · cases h
    · cases h; simp
    · obtain ⟨bs, h1, h2⟩ := Ex.bind_eq_ok.1 h
      cases h2
      have := ih _ _ h1
      simp only [List.length_cons]
      omega

/-- `1` or `0`. -/
def bitChar (b : Bool) : Char := if b then '1' else '0'

theorem prettyLine_ok (n : Nat) (line : List Char) (it : StackIterator) (fuel : Nat) (bits : List Bool)
    (h : it.drain fuel = .ok bits) :
    ∃ it' fuel', prettyLine n line it = .ok (line ++ (bits.take n).map bitChar) it' ∧
      it'.drain fuel' = .ok (bits.drop n) := by
  induction n generalizing line it fuel bits with
  | zero => exact ⟨it, fuel, by simp [prettyLine, Pure.pure, EStateM.pure], h⟩
  | succ n ih =>
    obtain ⟨rfl, hn⟩ | ⟨b, bs, it', fuel', rfl, hn, hd⟩ := drain_cases h
    · refine ⟨it, fuel, ?_, h⟩
      rw [prettyLine, ES.bind_ok hn]
      simp [Pure.pure, EStateM.pure]
    · obtain ⟨it2, fuel2, h1, h2⟩ := ih (line ++ [bitChar b]) it' fuel' bs hd
      refine ⟨it2, fuel2, ?_, h2⟩
      rw [prettyLine, ES.bind_ok hn]
      simp only [List.take_succ_cons, List.map_cons]
      rw [show line ++ bitChar b :: List.map bitChar (List.take n bs) =
        line ++ [bitChar b] ++ List.map bitChar (List.take n bs) by simp, ← h1]
      rfl

theorem prettyLoop_ok (fuel : Nat) (it : StackIterator) (k : Nat) (bits : List Bool) (h : it.drain k = .ok bits)
    (hf : bits.length < fuel) :
    ∃ lines it', prettyLoop fuel it = .ok lines it' ∧ lines.flatten = bits.map bitChar ∧
      (∀ l ∈ lines, 0 < l.length ∧ l.length ≤ 8) ∧ (∀ l ∈ lines.dropLast, l.length = 8) := by
  induction fuel generalizing it k bits with
  | zero => omega
  | succ fuel ih =>
    obtain ⟨it', k', h1, h2⟩ := prettyLine_ok 8 [] it k bits h
    rw [List.nil_append] at h1
    rw [prettyLoop, ES.bind_ok h1]
    by_cases hb : bits = []
    · subst hb
      exact ⟨[], it', rfl, rfl, by simp, by simp⟩
    · have hl : 0 < bits.length := List.length_pos_iff.2 hb
      obtain ⟨lines, it2, h3, h4, h5, h6⟩ := ih it' k' (bits.drop 8) h2 (by rw [List.length_drop]; omega)
      have hne : ((bits.take 8).map bitChar).isEmpty = false := by
        rw [List.isEmpty_eq_false_iff, ← List.length_pos_iff, List.length_map, List.length_take]
        omega
      rw [hne, if_neg Bool.false_ne_true, ES.bind_ok h3]
      refine ⟨_, it2, rfl, ?_, ?_, ?_⟩
      · rw [List.flatten_cons, h4, ← List.map_append, List.take_append_drop]
      · intro l hl'
        rcases List.mem_cons.1 hl' with rfl | hl'
        · rw [List.length_map, List.length_take]; omega
        · exact h5 l hl'
      · intro l hl'
        cases lines with
        | nil => simp at hl'
        | cons m ms =>
          rw [List.dropLast_cons_of_ne_nil (by simp)] at hl'
          rcases List.mem_cons.1 hl' with rfl | hl'
          · have hm := (h5 m (by simp)).1
            have := congrArg List.length h4
            simp only [List.flatten_cons, List.length_append, List.length_map, List.length_drop] at this
            rw [List.length_map, List.length_take]
            omega
          · exact h6 l hl'

end BitVector

/-- C102: the bits are printed in order, eight on a line, the rest on the last line. -/
theorem C102_pretty (v : BitVector) (bits : List Bool) (h : v.toBits = .ok bits) :
    ∃ lines, v.prettyPrint = .ok lines ∧ lines.flatten = bits.map (fun b => if b then '1' else '0') ∧
      (∀ l ∈ lines, 0 < l.length ∧ l.length ≤ 8) ∧ ∀ l ∈ lines.dropLast, l.length = 8 := by
  obtain ⟨lines, it, h1, h2, h3, h4⟩ :=
    BitVector.prettyLoop_ok (v.len + 1) v.iter _ bits h (BitVector.drain_length _ _ _ h)
  exact ⟨lines, by rw [BitVector.prettyPrint, h1], h2, h3, h4⟩

example : BitVector.toBits ⟨[0xff, 0x01, 0x03], 18⟩ =
      .ok (List.replicate 9 true ++ List.replicate 7 false ++ [true, true]) ∧
    BitVector.prettyPrint ⟨[0xff, 0x01, 0x03], 18⟩ = .ok ["11111111".toList, "10000000".toList, "11".toList] := by
  decide +kernel

/-! ### C75 with the text of characters -/

/-- C75, for the `Debug` text of a `char`: the dump tells the blocks. -/
theorem C75_char (hd hd' : GzHeader) (hv : hd.Valid) (hv' : hd'.Valid) (d d' trailer trailer' : List UInt8)
    (blocks blocks' : List Block) (hb : DeflateBytes blocks d) (hb' : DeflateBytes blocks' d')
    (h : (Dump.run charDebug (hd.bytes ++ d ++ trailer)).2 = (Dump.run charDebug (hd'.bytes ++ d' ++ trailer')).2) :
    blocks.map eraseStored = blocks'.map eraseStored :=
  C75_faithful charDebug newline_charDebug hd hd' hv hv' d d' trailer trailer' blocks blocks' hb hb' h

end Rezip
