import Verif.Model.TraceText
import Verif.Props.Debug
import Verif.Props.Main
import Verif.Props.TraceExample
import Verif.Spec.TraceText

/-!
# C110: the text of the trace example
-/

namespace Rezip

open Spec Parse

namespace TraceExample

open Render

/-! ### Reading the text back -/

theorem four_inj {n m : Nat} (h : four n = four m) : n = m := by
  have key : ∀ n, (four n).filter (· != ' ') = decimal n := by
    intro n
    unfold four
    rw [List.filter_append, List.filter_eq_nil_iff.2, List.nil_append, List.filter_eq_self.2]
    · intro c hc
      have := not_mem_decimal (c := ' ') (by decide) n
      simp only [bne_iff_ne, ne_eq]
      rintro rfl
      exact this hc
    · intro c hc
      simp [List.eq_of_mem_replicate hc]
  exact decimal_inj (by rw [← key, ← key, h])

theorem cut_four {n m : Nat} {x y : List Char} (h : four n ++ '.' :: x = four m ++ '.' :: y) : n = m ∧ x = y := by
  have hn : ∀ n, '.' ∉ four n := by
    intro n hm
    rcases List.mem_append.1 hm with h | h
    · exact absurd (List.eq_of_mem_replicate h) (by decide)
    · exact not_mem_decimal (by decide) n h
  obtain ⟨h1, h2⟩ := cut (hn n) (hn m) h
  exact ⟨four_inj h1, by simpa using h2⟩

/-- A number ends where a text starts that is not a digit. -/
theorem cut_text (s : String) (hs : s.toList.head?.map Char.isDigit = some false) {n m : Nat} {x y : List Char}
    (h : decimal n ++ (s.toList ++ x) = decimal m ++ (s.toList ++ y)) : n = m ∧ x = y := by
  generalize s.toList = sep at hs h
  cases sep with
  | nil => cases hs
  | cons c sep =>
    obtain ⟨h1, h2⟩ := cut_decimal (by simpa using hs) h
    exact ⟨h1, by simpa using h2⟩

theorem option_unambiguous {α : Type} {f : α → List Char}
    (hf : ∀ a b x y, f a ++ (")".toList ++ x) = f b ++ (")".toList ++ y) → a = b ∧ x = y) :
    Unambiguous (optionText f) := by
  intro a b x y h
  match a, b with
  | none, none => exact ⟨rfl, List.append_cancel_left h⟩
  | none, some m => simp [optionText] at h
  | some n, none => simp [optionText] at h
  | some n, some m =>
    simp only [optionText, List.append_assoc, List.append_cancel_left_eq] at h
    obtain ⟨h1, h2⟩ := hf _ _ _ _ h
    exact ⟨by rw [h1], h2⟩

theorem lookaheadConfig_unambiguous : Unambiguous lookaheadConfigText := by
  intro a b x y h
  obtain ⟨a1, a2⟩ := a
  obtain ⟨b1, b2⟩ := b
  unfold lookaheadConfigText at h
  simp only [List.append_assoc, List.append_cancel_left_eq] at h
  obtain ⟨e1, h1⟩ := cut_text ", abort_above_length: " (by decide +kernel) h
  obtain ⟨e2, h2⟩ := cut_text " }" (by decide +kernel) h1
  exact ⟨by rw [e1, e2], h2⟩

theorem wams_unambiguous : Unambiguous wamsText := by
  intro a b x y h
  obtain ⟨a1, a2, a3, a4⟩ := a
  obtain ⟨b1, b2, b3, b4⟩ := b
  unfold wamsText at h
  simp only [List.append_assoc, List.append_cancel_left_eq] at h
  obtain ⟨e1, h1⟩ := cut_text ", limit_count_of_distances: " (by decide +kernel) h
  obtain ⟨e2, h2⟩ := cut_text ", insert_only_below_length: " (by decide +kernel) h1
  obtain ⟨e3, h3⟩ := option_unambiguous (fun a b x y h => cut_text ")" (by decide +kernel) h) _ _ _ _ h2
  obtain ⟨e4, h4⟩ := option_unambiguous (fun a b x y h => by
    obtain ⟨h1, h2⟩ := lookaheadConfig_unambiguous _ _ _ _ h
    exact ⟨h1, List.append_cancel_left h2⟩) _ _ _ _ (List.append_cancel_left h3)
  exact ⟨by rw [e1, e2, e3, e4], List.append_cancel_left h4⟩

theorem bool_unambiguous : Unambiguous boolText := by
  intro a b x y h
  by_cases e : a = b
  · subst e
    exact ⟨rfl, List.append_cancel_left h⟩
  · exfalso
    cases a <;> cases b <;> first | exact e rfl | simp [boolText] at h

theorem lookahead_unambiguous : Unambiguous lookaheadText := by
  have k : ∀ (a : Lookahead) (x : List Char), (lookaheadText a ++ x).take 2 = (lookaheadText a).take 2 := by
    intro a x
    rw [List.take_append_of_le_length (by cases a <;> decide +kernel)]
  have t : ∀ a b, (lookaheadText a).take 2 = (lookaheadText b).take 2 → a = b := by
    intro a b
    cases a <;> cases b <;> decide +kernel
  intro a b x y h
  have e := t a b (by rw [← k a x, ← k b y, h])
  subst e
  exact ⟨rfl, List.append_cancel_left h⟩

theorem picker_unambiguous : Unambiguous pickerText := by
  have k : ∀ (a : Picker) (x : List Char), (pickerText a ++ x).take 2 = (pickerText a).take 2 := by
    intro a x
    rw [List.take_append_of_le_length (by cases a <;> decide +kernel)]
  have t : ∀ a b, (pickerText a).take 2 = (pickerText b).take 2 → a = b := by
    intro a b
    cases a <;> cases b <;> decide +kernel
  intro a b x y h
  have e := t a b (by rw [← k a x, ← k b y, h])
  subst e
  exact ⟨rfl, List.append_cancel_left h⟩

theorem config_unambiguous : Unambiguous configText := by
  intro a b x y h
  obtain ⟨a1, a2, a3, a4⟩ := a
  obtain ⟨b1, b2, b3, b4⟩ := b
  unfold configText at h
  simp only [List.append_assoc, List.append_cancel_left_eq] at h
  obtain ⟨e1, h1⟩ := bool_unambiguous _ _ _ _ h
  obtain ⟨e2, h2⟩ := lookahead_unambiguous _ _ _ _ (List.append_cancel_left h1)
  obtain ⟨e3, h3⟩ := picker_unambiguous _ _ _ _ (List.append_cancel_left h2)
  obtain ⟨e4, h4⟩ := wams_unambiguous _ _ _ _ (List.append_cancel_left h3)
  exact ⟨by rw [e1, e2, e3, e4], List.append_cancel_left h4⟩

theorem obscure_unambiguous : Unambiguous obscureText := by
  intro a b x y h
  obtain ⟨a1, a2⟩ := a
  obtain ⟨b1, b2⟩ := b
  unfold obscureText at h
  simp only [List.append_assoc, List.append_cancel_left_eq] at h
  obtain ⟨e1, h1⟩ := cut_text ", " (by decide +kernel) h
  obtain ⟨e2, h2⟩ := cut_text ")" (by decide +kernel) h1
  exact ⟨by rw [e1, e2], h2⟩

theorem digitChar_ne (k : Nat) : '\n' ≠ Nat.digitChar k := by
  by_cases h : k < 16
  · have hd : ∀ k : Fin 16, '\n' ≠ Nat.digitChar k.val := by decide
    exact hd ⟨k, h⟩
  · unfold Nat.digitChar
    iterate 16 rw [if_neg (by omega)]
    decide

/-- The index is some lines that are not empty, and an empty one. -/
theorem index_lines (preroll data : List UInt8) : ∃ ls : List (List Char),
    indexText preroll data = .ok (Dump.print ls ++ ['\n']) ∧ ∀ l ∈ ls, l ≠ [] ∧ '\n' ∉ l := by
  obtain ⟨a, positions, h1, h2, _⟩ := C100_text preroll data 0
  have key : ∀ hs : List Nat, ∃ ls : List (List Char),
      hs.flatMap (fun hash => indexLine hash (positions hash)) = Dump.print ls ∧ ∀ l ∈ ls, l ≠ [] ∧ '\n' ∉ l := by
    intro hs
    induction hs with
    | nil => exact ⟨[], rfl, by simp⟩
    | cons hash hs ih =>
      obtain ⟨ls, e, hl⟩ := ih
      rw [List.flatMap_cons, e]
      unfold indexLine
      split
      · exact ⟨ls, rfl, hl⟩
      · refine ⟨(" - ".toList ++ hex4 hash ++ ": [".toList ++
          ", ".toList.intercalate ((positions hash).map decimal) ++ "]".toList) :: ls, ?_, ?_⟩
        · simp [Dump.print]
        · intro l hm
          rcases List.mem_cons.1 hm with rfl | hm
          · refine ⟨by simp, ?_⟩
            have h4 : '\n' ∉ hex4 hash := by
              unfold hex4
              simp [digitChar_ne]
            have hi : ∀ ps : List Nat, '\n' ∉ ", ".toList.intercalate (ps.map decimal) := by
              intro ps
              cases ps with
              | nil => simp [List.intercalate]
              | cons p ps =>
                intro hm
                have : '\n' ∈ decimal p ++ listTail decimal ps := by
                  rw [listTail_eq]
                  exact List.mem_append_left _ hm
                rcases List.mem_append.1 this with h | h
                · exact not_mem_decimal (by decide) p h
                · clear hm this
                  induction ps with
                  | nil => simp [listTail] at h
                  | cons q qs ih =>
                    rw [listTail, List.append_assoc] at h
                    rcases List.mem_append.1 h with h | h
                    · simp at h
                    · rcases List.mem_append.1 h with h | h
                      · exact not_mem_decimal (by decide) q h
                      · exact ih h
            intro hm
            simp only [List.mem_append] at hm
            rcases hm with ((((hm | hm) | hm) | hm) | hm)
            · simp at hm
            · exact h4 hm
            · simp at hm
            · exact hi _ hm
            · simp at hm
          · exact hl l hm
  obtain ⟨ls, e, hl⟩ := key (List.range 32768)
  refine ⟨ls, ?_, hl⟩
  rw [indexText, h1, Ex.ok_bind, h2, e]

theorem index_cut {ls ls' : List (List Char)} (h : ∀ l ∈ ls, l ≠ [] ∧ '\n' ∉ l) (h' : ∀ l ∈ ls', l ≠ [] ∧ '\n' ∉ l)
    {x y : List Char} (e : Dump.print ls ++ '\n' :: x = Dump.print ls' ++ '\n' :: y) : ls = ls' ∧ x = y := by
  induction ls generalizing ls' with
  | nil =>
    cases ls' with
    | nil => exact ⟨rfl, by simpa [Dump.print] using e⟩
    | cons l' ls' =>
      obtain ⟨h1, h2⟩ := h' l' (by simp)
      cases l' with
      | nil => exact absurd rfl h1
      | cons c l' =>
        simp [Dump.print] at e
        exact absurd e.1 (by rintro rfl; simp at h2)
  | cons l ls ih =>
    obtain ⟨h1, h2⟩ := h l (by simp)
    cases ls' with
    | nil =>
      cases l with
      | nil => exact absurd rfl h1
      | cons c l =>
        simp [Dump.print] at e
        exact absurd e.1 (by rintro rfl; simp at h2)
    | cons l' ls' =>
      obtain ⟨h3, h4⟩ := h' l' (by simp)
      have e : l ++ '\n' :: (Dump.print ls ++ '\n' :: x) = l' ++ '\n' :: (Dump.print ls' ++ '\n' :: y) := by
        simpa [Dump.print] using e
      obtain ⟨rfl, e2⟩ := cut h2 h4 e
      obtain ⟨rfl, e3⟩ := ih (ls' := ls') (fun l hl => h l (by simp [hl])) (fun l hl => h' l (by simp [hl])) (by simpa using e2)
      exact ⟨rfl, e3⟩

theorem utf8_inj {a b : List Char} (h : Dump.utf8 a = Dump.utf8 b) : a = b := by
  have e : (String.ofList a).toByteArray = (String.ofList b).toByteArray := by
    rw [String.toByteArray_ofList, String.toByteArray_ofList, List.utf8Encode, List.utf8Encode]
    exact congrArg List.toByteArray h
  have := congrArg String.toList (String.toByteArray_inj.1 e)
  rwa [String.toList_ofList, String.toList_ofList] at this

/-! ### One line -/

/-- The lines that the program can print. -/
def Printable : Line → Prop
  | .dynamic trees => ∃ bits, trees = BitVector.ofBits bits
  | .trace name _ => name = "gzip --fast" ∨ name = "gzip [--default]"
  | .miss _ _ _ actual => actual ≠ .correct
  | .guesser config _ _ _ => config = fastConfig ∨ config = defaultConfig
  | _ => True

/-- What a line says: of the bytes around a place the text, and of the bytes that the index was made from the text of
the index. -/
def told (hint : List UInt8 → List Char) : Line → Line × List Char
  | .miss pos bytes guess actual => (.miss pos [] guess actual, hint bytes)
  | .guesser config preroll data s =>
    (.guesser config [] [] s, match indexText preroll data with | .ok t => t | .error _ => [])
  | l => (l, [])

/-- No text is the start of another one. -/
def PrefixFree (hint : List UInt8 → List Char) : Prop :=
  ∀ a b x y, hint a ++ x = hint b ++ y → hint a = hint b ∧ x = y

theorem bitVec_ofBits (bits : List Bool) : bitVec (BitVector.ofBits bits) =
    .ok ("BitVec: ".toList ++ decimal bits.length ++ ": ".toList ++ bits.map fun b => if b then '1' else '0') := by
  rw [bitVec, BitVector.toBits_ofBits, Ex.ok_bind]
  have : (BitVector.ofBits bits).len = bits.length := by simp [BitVector.ofBits]
  rw [this]
  rfl

theorem lineText_ok (hint : List UInt8 → List Char) {l : Line} (h : Printable l) :
    ∃ t, lineText hint l = .ok t := by
  cases l with
  | dynamic trees =>
    obtain ⟨bits, rfl⟩ := h
    exact ⟨_, by rw [lineText, bitVec_ofBits]; rfl⟩
  | guesser config preroll data s =>
    obtain ⟨ls, e, _⟩ := index_lines preroll data
    exact ⟨_, by rw [lineText, e]; rfl⟩
  | _ => exact ⟨_, rfl⟩

/-- What kind of line a text starts with. -/
def kind (s : List Char) : Nat :=
  if s[0]? = some '\n' then 7
  else if s[0]? = some 'b' then 0
  else if s[1]? = some '-' then (if s[3]? = some 'u' then 1 else if s[3]? = some 'f' then 2 else 3)
  else if s[3]? = some '*' then (if s[5]? = some 't' then 4 else 5)
  else 6

def kindOf : Line → Nat
  | .block _ => 0
  | .stored _ => 1
  | .fixed => 2
  | .dynamic _ => 3
  | .trace _ _ => 4
  | .guesser .. => 5
  | .miss .. => 6
  | .blank => 7

theorem kind_eq (hint : List UInt8 → List Char) {l : Line} {t : List Char} (h : lineText hint l = .ok t)
    (x : List Char) : kind (t ++ '\n' :: x) = kindOf l := by
  cases l with
  | block id =>
    cases h
    have e : "block ".toList = 'b' :: "lock ".toList := by decide +kernel
    rw [e]
    rfl
  | stored len =>
    cases h
    have e : " - uncompressed: ".toList = ' ' :: '-' :: ' ' :: 'u' :: "ncompressed: ".toList := by decide +kernel
    rw [e]
    rfl
  | fixed =>
    cases h
    have e : " - fixed huffman:".toList = ' ' :: '-' :: ' ' :: 'f' :: "ixed huffman:".toList := by decide +kernel
    rw [e]
    rfl
  | dynamic trees =>
    rw [lineText] at h
    obtain ⟨b, _, h⟩ := Ex.bind_eq_ok.1 h
    cases h
    have e : " - dynamic huffman: ".toList = ' ' :: '-' :: ' ' :: 'd' :: "ynamic huffman: ".toList := by decide +kernel
    rw [e]
    rfl
  | trace name size =>
    cases h
    have e : "   * trace: ".toList = ' ' :: ' ' :: ' ' :: '*' :: ' ' :: 't' :: "race: ".toList := by decide +kernel
    rw [e]
    rfl
  | miss pos bytes guess actual =>
    cases h
    have e : "   ".toList = [' ', ' ', ' '] := by decide +kernel
    have h1 : '*' ∉ four pos := by
      intro hm
      rcases List.mem_append.1 hm with h | h
      · exact absurd (List.eq_of_mem_replicate h) (by decide)
      · exact not_mem_decimal (by decide) pos h
    rw [e]
    simp only [List.append_assoc]
    generalize ". ".toList ++ _ = rest
    cases hf : four pos with
    | nil =>
      have : decimal pos = [] := by
        have := congrArg List.length hf
        simp only [four, List.length_append, List.length_nil] at this
        exact List.length_eq_zero_iff.1 (by omega)
      exact absurd this (by unfold decimal; exact Nat.toDigits_ne_nil)
    | cons c cs =>
      have hc : c ≠ '*' := by
        rintro rfl
        rw [hf] at h1
        exact h1 (by simp)
      simp [kind, kindOf, hc]
  | guesser config preroll data s =>
    rw [lineText] at h
    obtain ⟨b, _, h⟩ := Ex.bind_eq_ok.1 h
    cases h
    have e : "   * guesser: ".toList = ' ' :: ' ' :: ' ' :: '*' :: ' ' :: 'g' :: "uesser: ".toList := by decide +kernel
    rw [e]
    rfl
  | blank =>
    cases h
    rfl

theorem line_inj {hint : List UInt8 → List Char} (hh : PrefixFree hint) {l l' : Line} (hl : Printable l)
    (hl' : Printable l') {t t' x y : List Char} (h : lineText hint l = .ok t) (h' : lineText hint l' = .ok t')
    (e : t ++ '\n' :: x = t' ++ '\n' :: y) : told hint l = told hint l' ∧ x = y := by
  have hk : kindOf l = kindOf l' := by rw [← kind_eq hint h x, ← kind_eq hint h' y, e]
  have nl : ∀ {x y : List Char}, '\n' :: x = '\n' :: y → x = y := fun h => (List.cons.inj h).2
  cases l with
  | block id =>
    cases l' <;> first | cases hk | skip
    cases h
    cases h'
    simp only [List.append_assoc, List.append_cancel_left_eq] at e
    obtain ⟨e1, e2⟩ := cut_text ":" (by decide +kernel) e
    exact ⟨by rw [e1], nl e2⟩
  | stored len =>
    cases l' <;> first | cases hk | skip
    cases h
    cases h'
    simp only [List.append_assoc, List.append_cancel_left_eq] at e
    obtain ⟨e1, e2⟩ := cut_text " bytes" (by decide +kernel) e
    exact ⟨by rw [e1], nl e2⟩
  | fixed =>
    cases l' <;> first | cases hk | skip
    cases h
    cases h'
    exact ⟨rfl, nl (List.append_cancel_left e)⟩
  | dynamic trees =>
    cases l' <;> first | cases hk | skip
    obtain ⟨bits, rfl⟩ := hl
    obtain ⟨bits', rfl⟩ := hl'
    rw [lineText, bitVec_ofBits] at h h'
    cases h
    cases h'
    simp only [List.append_assoc, List.append_cancel_left_eq] at e
    obtain ⟨_, e2⟩ := cut_text ": " (by decide +kernel) e
    have hm : ∀ bits : List Bool, '\n' ∉ bits.map fun b => if b then '1' else '0' := by
      intro bits hm
      obtain ⟨b, _, hb⟩ := List.mem_map.1 hm
      cases b <;> exact absurd hb (by decide)
    obtain ⟨e3, e4⟩ := cut (hm bits) (hm bits') e2
    refine ⟨?_, e4⟩
    have : bits = bits' := by
      have := congrArg (List.map (· == '1')) e3
      rw [List.map_map, List.map_map] at this
      have hi : ((· == '1') ∘ fun b : Bool => if b then '1' else '0') = id := by
        funext b
        cases b <;> decide
      rwa [hi, List.map_id, List.map_id] at this
    rw [this]
  | trace name size =>
    cases l' <;> first | cases hk | skip
    rename_i name' size'
    cases h
    cases h'
    simp only [List.append_assoc, List.append_cancel_left_eq] at e
    have hn : name = name' := by
      have k : ∀ (n : String) (x : List Char), 6 ≤ n.toList.length → (n.toList ++ x).take 6 = n.toList.take 6 :=
        fun n x h => List.take_append_of_le_length h
      have e6 := congrArg (List.take 6) e
      rcases hl with rfl | rfl <;> rcases hl' with rfl | rfl
      · rfl
      · rw [k _ _ (by decide +kernel), k _ _ (by decide +kernel)] at e6
        exact absurd e6 (by decide +kernel)
      · rw [k _ _ (by decide +kernel), k _ _ (by decide +kernel)] at e6
        exact absurd e6 (by decide +kernel)
      · rfl
    subst hn
    obtain ⟨e1, e2⟩ := cut_decimal (by decide) (List.append_cancel_left (List.append_cancel_left e))
    exact ⟨by rw [e1], e2⟩
  | miss pos bytes guess actual =>
    cases l' <;> first | cases hk | skip
    rename_i pos' bytes' guess' actual'
    cases h
    cases h'
    simp only [List.append_assoc, List.append_cancel_left_eq] at e
    have ed : ". ".toList = ['.', ' '] := by decide +kernel
    rw [ed] at e
    obtain ⟨e1, e2⟩ := cut_four e
    obtain ⟨e3, e4⟩ := hh _ _ _ _ (List.append_cancel_left (as := [' ']) e2)
    obtain ⟨e5, e6⟩ := list_unambiguous (code_unambiguous charDebug)
      (fun t x y he => by cases t <;> simp [code] at he) _ _ _ _ (List.append_cancel_left e4)
    have e7 := List.append_cancel_left e6
    have : actual = actual' ∧ x = y := by
      match actual, actual', hl, hl', e7 with
      | .correct, _, hl, _, _ => exact absurd rfl hl
      | _, .correct, _, hl', _ => exact absurd rfl hl'
      | .actuallyLiteral, .actuallyLiteral, _, _, e7 => exact ⟨rfl, nl (List.append_cancel_left e7)⟩
      | .actually r, .actually r', _, _, e7 =>
        obtain ⟨k1, k2⟩ := ref_unambiguous _ _ _ _ e7
        exact ⟨by rw [k1], nl k2⟩
      | .actuallyLiteral, .actually r', _, _, e7 => simp [actualText, ref] at e7
      | .actually r, .actuallyLiteral, _, _, e7 => simp [actualText, ref] at e7
    exact ⟨by rw [told, told, e1, e3, e5, this.1], this.2⟩
  | guesser config preroll data s =>
    cases l' <;> first | cases hk | skip
    rename_i config' preroll' data' s'
    obtain ⟨ls, k, hls⟩ := index_lines preroll data
    obtain ⟨ls', k', hls'⟩ := index_lines preroll' data'
    rw [lineText, k] at h
    rw [lineText, k'] at h'
    cases h
    cases h'
    obtain ⟨runs, pos⟩ := s
    obtain ⟨runs', pos'⟩ := s'
    unfold scannerText at e
    simp only [List.append_assoc, List.append_cancel_left_eq, List.singleton_append] at e
    obtain ⟨e1, e2⟩ := config_unambiguous _ _ _ _ e
    obtain ⟨e3, e4⟩ := index_cut hls hls' (List.append_cancel_left e2)
    obtain ⟨e5, e6⟩ := list_unambiguous obscure_unambiguous
      (fun t x y he => by simp [obscureText] at he) _ _ _ _ (List.append_cancel_left e4)
    obtain ⟨e7, e8⟩ := cut_text " }" (by decide +kernel) (List.append_cancel_left e6)
    refine ⟨?_, nl e8⟩
    rw [told, told, k, k', e1, e3, e5, e7]
  | blank =>
    cases l' <;> first | cases hk | skip
    cases h
    cases h'
    exact ⟨rfl, nl e⟩

theorem list_eq {α : Type} (f : α → List Char) (g : α → String) (h : ∀ a, f a = (g a).toList) (as : List α) :
    list f as = (bracketed (as.map g)).toList := by
  have hi : ∀ ss : List String, (", ".intercalate ss).toList = ", ".toList.intercalate (ss.map String.toList) := by
    intro ss
    exact String.toList_intercalate
  have e : (as.map g).map String.toList = as.map f := by
    rw [List.map_map]
    exact List.map_congr_left fun a _ => (h a).symm
  have eb : (bracketed (as.map g)).toList = "[".toList ++ (", ".toList.intercalate (as.map f)) ++ "]".toList := by
    unfold bracketed
    simp only [toString_str, String.toList_append, hi, e]
  rw [eb]
  cases as with
  | nil =>
    have e0 : "[]".toList = "[".toList ++ ", ".toList.intercalate [] ++ "]".toList := by decide +kernel
    exact e0
  | cons a as => rw [list, List.append_assoc, listTail_eq, List.append_assoc]

theorem toString_nat (n : Nat) : (toString n).toList = decimal n := by
  rw [decimal, Nat.toString_eq_repr, Nat.toList_repr]

theorem lineText_eq (hint : List UInt8 → String) {l : Line} (hl : Printable l) : ∃ index : String,
    lineText (fun b => (hint b).toList) l = .ok (lineSays hint index l).toList ∧
    ∀ config preroll data s, l = .guesser config preroll data s → indexText preroll data = .ok index.toList := by
  cases l with
  | block id =>
    refine ⟨"", ?_, fun _ _ _ _ h => by cases h⟩
    unfold lineText lineSays
    simp only [toString_str, String.toList_append, toString_nat]
    rfl
  | stored len =>
    refine ⟨"", ?_, fun _ _ _ _ h => by cases h⟩
    unfold lineText lineSays
    simp only [toString_str, String.toList_append, toString_nat]
    rfl
  | fixed => exact ⟨"", rfl, fun _ _ _ _ h => by cases h⟩
  | dynamic trees =>
    refine ⟨"", ?_, fun _ _ _ _ h => by cases h⟩
    obtain ⟨bits, rfl⟩ := hl
    have hb : treeBits (BitVector.ofBits bits) = bits := by
      rw [treeBits, headerBits, BitVector.toBits_ofBits]
      rfl
    have ep : " - dynamic huffman: BitVec: ".toList = " - dynamic huffman: ".toList ++ "BitVec: ".toList := by
      decide +kernel
    unfold lineText lineSays
    dsimp only
    rw [bitVec_ofBits, Ex.ok_bind, hb]
    simp only [toString_str, String.toList_append, toString_nat, bitText, String.toList_ofList, ep, List.append_assoc]
    rfl
  | trace name size =>
    refine ⟨"", ?_, fun _ _ _ _ h => by cases h⟩
    unfold lineText lineSays
    simp only [toString_str, String.toList_append, toString_nat]
    rfl
  | miss pos bytes guess actual =>
    refine ⟨"", ?_, fun _ _ _ _ h => by cases h⟩
    have hc : ∀ c, code charDebug c = (codeSays c).toList := by
      intro c
      cases c with
      | literal b =>
        unfold code codeSays
        simp only [toString_str, String.toList_append, ← Dump.hex2_eq, String.toList_ofList]
      | reference r =>
        unfold code codeSays
        simp only [toString_str, String.toList_append, toString_nat]
    have hp : (padded pos).toList = four pos := by
      unfold padded four
      rw [String.toList_append, String.toList_ofList, toString_nat, ← toString_nat, String.length_toList]
    have ha : (actualSays actual).toList = actualText actual := by
      cases actual with
      | correct => rfl
      | actuallyLiteral => rfl
      | actually r =>
        unfold actualSays actualText ref
        simp only [toString_str, String.toList_append, toString_nat]
    unfold lineText lineSays
    simp only [toString_str, String.toList_append, list_eq _ _ hc, hp, ha]
    rfl
  | guesser config preroll data s =>
    obtain ⟨ls, k, _⟩ := index_lines preroll data
    refine ⟨String.ofList (Dump.print ls ++ ['\n']), ?_, fun _ _ _ _ h => by cases h; rw [k, String.toList_ofList]⟩
    have ho : ∀ o : Nat × Nat, obscureText o = s!"({o.1}, {o.2})".toList := by
      intro o
      unfold obscureText
      simp only [toString_str, String.toList_append, toString_nat]
    have hc : configText config = (configSays config).toList := by
      rcases hl with rfl | rfl <;> decide +kernel
    have e1 : "   * guesser: Scanner { technique: Technique { config: ".toList =
        "   * guesser: ".toList ++ "Scanner { technique: Technique { config: ".toList := by decide +kernel
    have e2 : " }, obscured: ".toList = " }, ".toList ++ "obscured: ".toList := by decide +kernel
    unfold lineText lineSays scannerText
    dsimp only
    rw [k, Ex.ok_bind]
    simp only [toString_str, String.toList_append, toString_nat, String.toList_ofList, e1, e2, hc, list_eq _ _ ho,
      List.append_assoc]
    rfl
  | blank => exact ⟨"", rfl, fun _ _ _ _ h => by cases h⟩

/-! ### All lines -/

/-- The text of the index of some bytes, as in C100. -/
def IndexSays (preroll data : List UInt8) (index : String) : Prop :=
  ∃ positions : Nat → List Nat,
    index.toList = (List.range 32768).flatMap (fun hash => indexLine hash (positions hash)) ++ ['\n'] ∧
    ∀ hash, (positions hash).Pairwise (· < ·) ∧
      ∀ j, j ∈ positions hash ↔ 0 < j ∧ ∃ k, threeAt (preroll ++ data) j = some k ∧ k.hash16 = hash

/-- The text is that of the lines, each with a line end. -/
def LinesSay (hint : List UInt8 → String) : List Line → List Char → Prop
  | [], text => text = []
  | l :: ls, text => ∃ index rest, text = (lineSays hint index l).toList ++ '\n' :: rest ∧
      (∀ config preroll data s, l = .guesser config preroll data s → IndexSays preroll data index) ∧
      LinesSay hint ls rest

theorem indexText_says {preroll data : List UInt8} {index : String} (h : indexText preroll data = .ok index.toList) :
    IndexSays preroll data index := by
  obtain ⟨a, positions, h1, h2, h3⟩ := C100_text preroll data 0
  refine ⟨positions, ?_, h3⟩
  rw [indexText, h1, Ex.ok_bind, h2] at h
  exact (Except.ok.inj h).symm

/-- The text of the lines. -/
def textOf (hint : List UInt8 → List Char) : List Line → Except Fail (List Char)
  | [] => pure []
  | l :: ls => do
    let t ← lineText hint l
    let rest ← textOf hint ls
    pure (t ++ '\n' :: rest)

theorem lines_inj {hint : List UInt8 → List Char} (hh : PrefixFree hint) {ls ls' : List Line}
    (hl : ∀ l ∈ ls, Printable l) (hl' : ∀ l ∈ ls', Printable l) {text : List Char}
    (h : textOf hint ls = .ok text) (h' : textOf hint ls' = .ok text) : ls.map (told hint) = ls'.map (told hint) := by
  induction ls generalizing ls' text with
  | nil =>
    cases h
    cases ls' with
    | nil => rfl
    | cons l' ls' =>
      rw [textOf] at h'
      obtain ⟨t, _, h2⟩ := Ex.bind_eq_ok.1 h'
      obtain ⟨rest, _, h4⟩ := Ex.bind_eq_ok.1 h2
      have := Except.ok.inj h4
      simp at this
  | cons l ls ih =>
    rw [textOf] at h
    obtain ⟨t, h1, h2⟩ := Ex.bind_eq_ok.1 h
    obtain ⟨rest, h3, h4⟩ := Ex.bind_eq_ok.1 h2
    have h5 := Except.ok.inj h4
    cases ls' with
    | nil =>
      cases h'
      simp at h5
    | cons l' ls' =>
      rw [textOf] at h'
      obtain ⟨t', k1, k2⟩ := Ex.bind_eq_ok.1 h'
      obtain ⟨rest', k3, k4⟩ := Ex.bind_eq_ok.1 k2
      have k5 := Except.ok.inj k4
      obtain ⟨e1, e2⟩ := line_inj hh (hl l (by simp)) (hl' l' (by simp)) h1 k1 (h5.trans k5.symm)
      subst e2
      rw [List.map_cons, List.map_cons, e1,
        ih (fun l h => hl l (by simp [h])) (fun l h => hl' l (by simp [h])) h3 k3]

theorem printLines_eq (hint : List UInt8 → String) (ls : List Line) (h : ∀ l ∈ ls, Printable l) :
    ∃ text, LinesSay hint ls text ∧ textOf (fun b => (hint b).toList) ls = .ok text ∧
      printLines (fun b => (hint b).toList) ls = Dump.onSink (.ok ()) (Dump.utf8 text) := by
  induction ls with
  | nil => exact ⟨[], rfl, rfl, (Dump.onSink_nil (.ok ())).symm⟩
  | cons l ls ih =>
    obtain ⟨rest, h1, h3, h2⟩ := ih fun l hl => h l (by simp [hl])
    obtain ⟨index, k1, k2⟩ := lineText_eq hint (h l (by simp))
    refine ⟨_, ⟨index, rest, rfl, fun c p d s e => indexText_says (k2 c p d s e), h1⟩, ?_, ?_⟩
    · rw [textOf, k1, h3]
      rfl
    have : ∀ f : List Char → EStateM Fail Sink Unit,
        (liftE (.ok (lineSays hint index l).toList) >>= f) = f (lineSays hint index l).toList := fun f => rfl
    rw [printLines, k1, this, h2, Dump.println_eq, Dump.onSink_bind, ← Dump.utf8_append]
    simp

/-! ### What is printed is printable -/

/-- All that is printed is printable. -/
def Fine {α : Type} (x : Printing α) : Prop := ∀ l ∈ x.out, Printable l

theorem fine_lift {α : Type} (x : Except Fail α) : Fine (Printing.lift x) := fun l hl => by cases hl

theorem fine_say {l : Line} (h : Printable l) : Fine (Printing.say l) := fun l' hl => by
  cases List.mem_singleton.1 hl
  exact h

theorem fine_bind {α β : Type} {x : Printing α} {f : α → Printing β} (h : Fine x)
    (hf : ∀ a, Fine (f a)) : Fine (x >>= f) := by
  obtain ⟨r, out⟩ := x
  cases r with
  | error e => exact h
  | ok a =>
    intro l hl
    rcases List.mem_append.1 hl with hl | hl
    · exact h l hl
    · exact hf a l hl

theorem fine_showOne (t : Technique) (d : List UInt8) (s : Scanner) (x : Trace) : Fine (showOne t d s x) := by
  unfold showOne
  refine fine_bind (fine_lift _) fun _ => ?_
  cases x with
  | correct => exact fine_lift _
  | actuallyLiteral => exact fine_bind (fine_lift _) fun _ => fine_say (by intro h; cases h)
  | actually r => exact fine_bind (fine_lift _) fun _ => fine_say (by intro h; cases h)

theorem fine_showLoop (t : Technique) (d : List UInt8) (s : Scanner) (xs : List Trace) (cs : List Code) :
    Fine (showLoop t d s xs cs) := by
  induction xs generalizing s cs with
  | nil => unfold showLoop; exact fine_lift _
  | cons x xs ih =>
    cases cs with
    | nil => exact fine_lift _
    | cons c cs =>
      rw [showLoop]
      exact fine_bind (fine_showOne t d s x) fun _ => ih _ _

theorem fine_tryTrace (a : AllRefs) {name : String} {config : Config}
    (hn : name = "gzip --fast" ∨ name = "gzip [--default]") (hc : config = fastConfig ∨ config = defaultConfig)
    (codes : List Code) (d : List UInt8) : Fine (tryTrace a name config codes d) := by
  unfold tryTrace
  refine fine_bind (fine_lift _) fun _ => fine_bind (fine_lift _) fun _ => fine_bind (fine_say hn) fun _ =>
    fine_bind (fine_showLoop _ _ _ _ _) fun _ => fine_bind (fine_say hc) fun _ => fine_say trivial

theorem fine_print (p : Profile) (dict : CircularBuffer) (codes : List Code) : Fine (print p dict codes) := by
  have h1 : Config.gzip 1 = .ok fastConfig := rfl
  have h6 : Config.gzip16Default = .ok defaultConfig := rfl
  unfold print
  rw [h1, h6]
  refine fine_bind (fine_lift _) fun _ => fine_bind (fine_lift _) fun _ => ?_
  dsimp only
  refine fine_bind (fine_lift _) fun _ => fine_bind (fine_lift _) fun _ => fine_bind (fine_lift _) fun _ => ?_
  rw [lift_bind]
  refine fine_bind (fine_tryTrace _ (.inl rfl) (.inl rfl) _ _) fun _ => ?_
  rw [lift_bind]
  exact fine_bind (fine_tryTrace _ (.inr rfl) (.inr rfl) _ _) fun _ => fine_lift _

theorem fine_onBlock (p : Profile) (id : Nat) {b : Block} {off : Nat} {bs : List Bool}
    (hb : BlockBits LengthSym off b bs) (dict : CircularBuffer) : Fine (onBlock p id b dict) := by
  unfold onBlock
  refine fine_bind (fine_say trivial) fun _ => ?_
  cases hb with
  | stored data h => exact fine_bind (fine_say trivial) fun _ => fine_lift _
  | fixed codes bs h => exact fine_bind (fine_say trivial) fun _ => fine_print _ _ _
  | dynamic lit dist alpha codes trees hdr bs h1 h2 h3 h4 h5 =>
    cases Serialise.pushAll_eq h4
    exact fine_bind (fine_say ⟨_, rfl⟩) fun _ => fine_print _ _ _

theorem fine_loop (p : Profile) (fuel : Nat) (it : BlockIter) (id : Nat) (dict : CircularBuffer)
    (hb : ∀ n b, item n it = some (.ok b) → ∃ off bs, BlockBits LengthSym off b bs) :
    Fine (loop p fuel it id dict) := by
  induction fuel generalizing it id dict with
  | zero => exact fine_lift _
  | succ fuel ih =>
    rw [loop]
    cases hn : it.next with
    | mk o it1 =>
      cases o with
      | none => exact fine_lift _
      | some x =>
        dsimp only
        cases x with
        | error e => exact fine_lift (.error e)
        | ok b =>
          obtain ⟨off, bs, hbb⟩ := hb 0 b (by show it.next.1 = _; rw [hn])
          rw [lift_bind]
          refine fine_bind (fine_onBlock p id hbb dict) fun dict' => ih it1 (id + 1) dict' ?_
          intro n b' hx
          refine hb (n + 1) b' ?_
          show (after n it.next.2).next.1 = _
          rw [hn]
          exact hx

theorem fine_run (p : Profile) (file : List UInt8) : Fine (run p file) := by
  unfold run
  cases Gzip.discardHeader file with
  | error e s => exact fine_lift _
  | ok hd rest => exact fine_bind (fine_lift _) fun dict => fine_loop p _ _ 0 dict fun n b hx => item_blockBits hx

theorem runTo_eq (hint : List UInt8 → String) (p : Profile) (file : List UInt8) :
    ∃ text, LinesSay hint (run p file).out text ∧ textOf (fun b => (hint b).toList) (run p file).out = .ok text ∧
      runTo (fun b => (hint b).toList) p file = Dump.onSink (run p file).result (Dump.utf8 text) := by
  obtain ⟨text, h1, h3, h2⟩ := printLines_eq hint (run p file).out (fine_run p file)
  refine ⟨text, h1, h3, ?_⟩
  rw [runTo, h2, ← Dump.onSink_nil, Dump.onSink_bind, List.append_nil]

end TraceExample

/-! ### C110 -/

open TraceExample

/-- C110. What the example `trace` writes is the text of its lines, each with a line end, whatever the file: there is
no line that cannot be formatted. An output that takes it all gets it all, and the outcome is that of the file. An
output that does not gets the first part, as much as it takes, and the program panics. -/
theorem C110_text (hint : List UInt8 → String) (p : Profile) (file out : List UInt8) (room : Option Nat) :
    ∃ text, LinesSay hint (TraceExample.run p file).out text ∧
      ((∀ n, room = some n → (Dump.utf8 text).length ≤ n) →
        ∃ room', TraceExample.runTo (fun b => (hint b).toList) p file ⟨out, room⟩ =
          liftE (TraceExample.run p file).result ⟨out ++ Dump.utf8 text, room'⟩) ∧
      ∀ n, room = some n → n < (Dump.utf8 text).length →
        TraceExample.runTo (fun b => (hint b).toList) p file ⟨out, room⟩ =
          .error (.panic .explicit) ⟨out ++ (Dump.utf8 text).take n, some 0⟩ := by
  obtain ⟨text, h1, _, h2⟩ := TraceExample.runTo_eq hint p file
  refine ⟨text, h1, ?_, ?_⟩
  · intro h
    rw [h2]
    cases room with
    | none => exact ⟨_, rfl⟩
    | some n => exact ⟨_, by rw [Dump.onSink]; dsimp only; rw [if_pos (h n rfl)]⟩
  · rintro n rfl h
    rw [h2, Dump.onSink]
    dsimp only
    rw [if_neg (by omega)]

/-- What has been written in the end, also if the program panics or fails. -/
def written : EStateM.Result Fail Sink Unit → List UInt8
  | .ok _ s => s.out
  | .error _ s => s.out

/-- C110. The text tells the lines apart: two files with the same text have the same lines, but for bytes that the
quoting shows alike and bytes that make the same index. -/
theorem C110_faithful (hint : List UInt8 → String) (hh : PrefixFree fun b => (hint b).toList) (p p' : Profile)
    (file file' : List UInt8)
    (h : written (TraceExample.runTo (fun b => (hint b).toList) p file Sink.vec) =
      written (TraceExample.runTo (fun b => (hint b).toList) p' file' Sink.vec)) :
    (TraceExample.run p file).out.map (told fun b => (hint b).toList) =
      (TraceExample.run p' file').out.map (told fun b => (hint b).toList) := by
  have key : ∀ p file, ∃ text, textOf (fun b => (hint b).toList) (TraceExample.run p file).out = .ok text ∧
      written (TraceExample.runTo (fun b => (hint b).toList) p file Sink.vec) = Dump.utf8 text := by
    intro p file
    obtain ⟨text, _, h2, h3⟩ := TraceExample.runTo_eq hint p file
    refine ⟨text, h2, ?_⟩
    rw [h3]
    cases (TraceExample.run p file).result <;> rfl
  obtain ⟨text, h1, h2⟩ := key p file
  obtain ⟨text', h1', h2'⟩ := key p' file'
  have := TraceExample.utf8_inj (h2.symm.trans (h.trans h2'))
  subst this
  exact lines_inj hh (fine_run p file) (fine_run p' file') h1 h1'

/-- A way to quote that is not ambiguous: hexadecimal digits between quotation marks. -/
def exampleQuote (bytes : List UInt8) : String := String.ofList ('"' :: (bytes.flatMap Render.hex2 ++ ['"']))

theorem exampleQuote_prefixFree : PrefixFree fun b => (exampleQuote b).toList := by
  have hq : ∀ b : List UInt8, '"' ∉ b.flatMap Render.hex2 := by
    have hd : ∀ k, k < 16 → '"' ≠ Nat.digitChar k := by
      have : ∀ k : Fin 16, '"' ≠ Nat.digitChar k.val := by decide
      exact fun k hk => this ⟨k, hk⟩
    intro b hm
    obtain ⟨u, _, hu⟩ := List.mem_flatMap.1 hm
    have := u.toNat_lt
    simp only [Render.hex2, List.mem_cons, List.not_mem_nil, or_false] at hu
    rcases hu with hu | hu
    · exact hd _ (by omega) hu
    · exact hd _ (by omega) hu
  intro a b x y h
  simp only [exampleQuote, String.toList_ofList, List.cons_append, List.append_assoc, List.cons.injEq, true_and,
    List.nil_append] at h ⊢
  obtain ⟨h1, h2⟩ := Render.cut (hq a) (hq b) h
  rw [h1]
  exact ⟨rfl, h2⟩

/-- C110: `{:?}` of any configuration, not only of the two that the example prints, is the documented text. -/
theorem C110_config (c : Config) : configText c = (anyConfigSays c).toList := by
  obtain ⟨bug, ahead, picker, quit, limit, insert, lazy⟩ := c
  have e1 : ", wams: WamsOptimisations { ".toList =
      ", wams: ".toList ++ "WamsOptimisations { ".toList := by decide +kernel
  have e2 : "WamsOptimisations { quit_search_above_length: ".toList =
      "WamsOptimisations { ".toList ++ "quit_search_above_length: ".toList := by decide +kernel
  have e3 : " } }".toList = " }".toList ++ " }".toList := by decide +kernel
  have e4 : ", limit_count_of_distances: ".toList = ", ".toList ++ "limit_count_of_distances: ".toList := by
    decide +kernel
  have e5 : ", insert_only_below_length: ".toList = ", ".toList ++ "insert_only_below_length: ".toList := by
    decide +kernel
  have h1 : boolText bug = (match bug with | true => "true" | false => "false" : String).toList := by
    cases bug <;> rfl
  have h2 : lookaheadText ahead =
      (match ahead with | .greedy => "Greedy" | .gzip => "Gzip" | .threeZip => "ThreeZip" : String).toList := by
    cases ahead <;> rfl
  have h3 : pickerText picker =
      (match picker with | .longest => "Longest" | .dropFarThrees => "DropFarThrees" : String).toList := by
    cases picker <;> rfl
  have h4 : ∀ {α : Type} (f : α → List Char) (g : α → String), (∀ x, f x = (g x).toList) → ∀ o : Option α,
      optionText f o = (maybeSays (o.map g)).toList := by
    intro α f g h o
    cases o with
    | none => rfl
    | some x => simp only [optionText, maybeSays, Option.map, h, Render.toString_str, String.toList_append]
  have h5 := h4 Render.decimal (fun n => s!"{n}")
    (fun x => (toString_nat x).symm) insert
  have h7 : ∀ l : LookaheadConfig, lookaheadConfigText l =
      (s!"LookaheadConfig \{ apathetic_above_length: {l.apatheticAboveLength}, " ++
        s!"abort_above_length: {l.abortAboveLength} }").toList := by
    intro l
    have e : ", abort_above_length: ".toList = ", ".toList ++ "abort_above_length: ".toList := by decide +kernel
    unfold lookaheadConfigText
    simp only [Render.toString_str, String.toList_append, toString_nat, e, List.append_assoc]
  have h6 := h4 lookaheadConfigText _ h7 lazy
  unfold configText wamsText anyConfigSays
  dsimp only
  rw [h1, h2, h3, h5, h6]
  simp only [Render.toString_str, String.toList_append, toString_nat, e1, e2, e3, e4, e5, List.append_assoc]
  rfl

/-- A configuration that the example does not print. -/
example : configText ⟨false, .threeZip, .dropFarThrees, ⟨258, 4096, some 6, some ⟨32, 258⟩⟩⟩ =
    ("Config { first_byte_bug: false, lookahead: ThreeZip, picker: DropFarThrees, wams: WamsOptimisations { " ++
      "quit_search_above_length: 258, limit_count_of_distances: 4096, insert_only_below_length: Some(6), " ++
      "lookahead: Some(LookaheadConfig { apathetic_above_length: 32, abort_above_length: 258 }) } }").toList := by
  decide +kernel

/-- A stored block, on an output with and without enough room. -/
example :
    let hint := fun b => (exampleQuote b).toList
    let file := exampleGz ++ [1, 3, 0, 252, 255, 65, 66, 67]
    runTo hint .dev file Sink.vec = .ok () ⟨Dump.utf8 "block 0:\n - uncompressed: 3 bytes\n".toList, none⟩ ∧
      runTo hint .dev file ⟨[], some 12⟩ = .error (.panic .explicit) ⟨Dump.utf8 "block 0:\n - ".toList, some 0⟩ := by
  decide +kernel

/-- Lines of a block with codes. -/
example :
    let hint := fun b => (exampleQuote b).toList
    (textOf hint [.fixed, .dynamic (BitVector.ofBits [true, false, true]), .trace "gzip --fast" 6,
      .miss 4 [9, 1, 2] [.reference ⟨3, 0⟩] .actuallyLiteral,
      .miss 12345 [] [.literal 97, .literal 10] (.actually ⟨3, 4⟩), .blank] =
    .ok (" - fixed huffman:\n - dynamic huffman: BitVec: 3: 101\n   * trace: gzip --fast -> 6\n" ++
      "      4. \"090102\" guess: [R(-3, 3)] trace: literal\n" ++
      "   12345. \"\" guess: [L(0x61 'a'), L(0x0a '\\n')] trace: R[3, 7]\n\n").toList) := by
  decide +kernel

/-- The guesser, with the index of one position. -/
example : scannerText fastConfig " - 0841: [1]\n\n".toList ⟨[(1, 22), (30, 4)], 7⟩ =
    ("Scanner { technique: Technique { config: Config { first_byte_bug: true, lookahead: Greedy, picker: Longest, " ++
      "wams: WamsOptimisations { quit_search_above_length: 8, limit_count_of_distances: 4, " ++
      "insert_only_below_length: Some(4), lookahead: None } }, all_refs:  - 0841: [1]\n\n }, " ++
      "obscured: [(1, 22), (30, 4)], pos: 7 }").toList := by
  decide +kernel

end Rezip
