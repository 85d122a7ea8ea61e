import Verif.Props.Cat
import Verif.Props.Serialise
import Verif.Model.Dump
import Verif.Spec.Dump

/-!
# The dump tool and `Debug` output

C75, C76.
-/

namespace Rezip

open Spec Parse

namespace Render

theorem decimal_inj {n m : Nat} (h : decimal n = decimal m) : n = m := by
  have := congrArg (Nat.ofDigitChars 10 · 0) h
  simpa [decimal, Nat.ofDigitChars_toDigits] using this

theorem not_mem_decimal {c : Char} (h : c.isDigit = false) (n : Nat) : c ∉ decimal n := by
  intro hm
  have := Nat.isDigit_of_mem_toDigits (by omega) (by omega) hm
  rw [h] at this
  cases this

theorem toString_str (s : String) : toString s = s := rfl

theorem cut {c : Char} {a b x y : List Char} (ha : c ∉ a) (hb : c ∉ b)
    (h : a ++ c :: x = b ++ c :: y) : a = b ∧ x = y := by
  induction a generalizing b with
  | nil =>
    cases b with
    | nil => exact ⟨rfl, by simpa using h⟩
    | cons d b =>
      simp only [List.nil_append, List.cons_append, List.cons.injEq] at h
      exact absurd (by rw [h.1]; simp) hb
  | cons d a ih =>
    cases b with
    | nil =>
      simp only [List.nil_append, List.cons_append, List.cons.injEq] at h
      exact absurd (by rw [h.1]; simp) ha
    | cons e b =>
      simp only [List.cons_append, List.cons.injEq] at h
      obtain ⟨h1, h2⟩ := ih (fun hm => ha (by simp [hm])) (fun hm => hb (by simp [hm])) h.2
      exact ⟨by rw [h.1, h1], h2⟩

/-- A number, then something that is not a digit. -/
theorem cut_decimal {c : Char} (hc : c.isDigit = false) {n m : Nat} {x y : List Char}
    (h : decimal n ++ c :: x = decimal m ++ c :: y) : n = m ∧ x = y := by
  obtain ⟨h1, h2⟩ := cut (not_mem_decimal hc n) (not_mem_decimal hc m) h
  exact ⟨decimal_inj h1, h2⟩

theorem digitChar_inj : ∀ a, a < 16 → ∀ b, b < 16 → Nat.digitChar a = Nat.digitChar b → a = b := by
  decide

theorem hex2_inj {a b : UInt8} {x y : List Char} (h : hex2 a ++ x = hex2 b ++ y) : a = b ∧ x = y := by
  have ha := a.toNat_lt
  have hb := b.toNat_lt
  simp only [hex2, List.cons_append, List.nil_append, List.cons.injEq] at h
  have h1 := digitChar_inj _ (by omega) _ (by omega) h.1
  have h2 := digitChar_inj _ (by omega) _ (by omega) h.2.1
  exact ⟨UInt8.toNat_inj.1 (by omega), h.2.2⟩

theorem ref_eq {r r' : Ref} (h1 : r.dist.toNat = r'.dist.toNat) (h2 : r.run = r'.run) : r = r' := by
  obtain ⟨d, m⟩ := r
  obtain ⟨d', m'⟩ := r'
  unfold Ref.run at h2
  simp only [Ref.mk.injEq]
  exact ⟨UInt16.toNat_inj.1 h1, UInt8.toNat_inj.1 (by simp only at h2; omega)⟩

/-- Texts that can be told apart whatever follows. -/
def Unambiguous {α : Type} (f : α → List Char) : Prop :=
  ∀ a b x y, f a ++ x = f b ++ y → a = b ∧ x = y

theorem ref_unambiguous : Unambiguous ref := by
  intro a b x y h
  simp [ref] at h
  obtain ⟨h1, h2⟩ := cut_decimal (by decide) h
  simp only [List.cons.injEq, true_and] at h2
  obtain ⟨h3, h4⟩ := cut_decimal (by decide) h2
  exact ⟨ref_eq h1 h3, h4⟩

theorem trace_unambiguous : Unambiguous trace := by
  intro a b x y h
  cases a with
  | correct => cases b with
    | correct => simpa [trace] using h
    | actuallyLiteral => simp [trace] at h
    | actually r => simp [trace, ref] at h
  | actuallyLiteral => cases b with
    | correct => simp [trace] at h
    | actuallyLiteral => simpa [trace] using h
    | actually r => simp [trace, ref] at h
  | actually r => cases b with
    | correct => simp [trace, ref] at h
    | actuallyLiteral => simp [trace, ref] at h
    | actually r' =>
      obtain ⟨h1, h2⟩ := ref_unambiguous r r' x y h
      exact ⟨by rw [h1], h2⟩

theorem code_unambiguous (dbg : UInt8 → List Char) : Unambiguous (code dbg) := by
  intro a b x y h
  cases a with
  | literal u => cases b with
    | literal v =>
      simp only [code, List.append_assoc, List.append_cancel_left_eq] at h
      obtain ⟨h1, h2⟩ := hex2_inj h
      subst h1
      simpa using h2
    | reference r => simp [code] at h
  | reference r => cases b with
    | literal v => simp [code] at h
    | reference r' =>
      simp [code] at h
      obtain ⟨h1, h2⟩ := cut_decimal (by decide) h
      simp only [List.cons.injEq, true_and] at h2
      obtain ⟨h3, h4⟩ := cut_decimal (by decide) h2
      exact ⟨by rw [ref_eq h1 h3], h4⟩

theorem listTail_unambiguous {α : Type} {f : α → List Char} (hf : Unambiguous f) :
    Unambiguous (listTail f) := by
  intro a
  induction a with
  | nil =>
    intro b x y h
    cases b with
    | nil => simpa [listTail] using h
    | cons v b => simp [listTail] at h
  | cons u a ih =>
    intro b x y h
    cases b with
    | nil => simp [listTail] at h
    | cons v b =>
      simp only [listTail, List.append_assoc, List.append_cancel_left_eq] at h
      obtain ⟨h1, h2⟩ := hf _ _ _ _ h
      obtain ⟨h3, h4⟩ := ih _ _ _ h2
      exact ⟨by rw [h1, h3], h4⟩

theorem list_unambiguous {α : Type} {f : α → List Char} (hf : Unambiguous f)
    (hn : ∀ a x y, f a ++ x ≠ ']' :: y) : Unambiguous (list f) := by
  intro a b x y h
  cases a with
  | nil =>
    cases b with
    | nil => simpa [list] using h
    | cons v b =>
      simp [list] at h
      exact absurd h.symm (hn _ _ _)
  | cons u a =>
    cases b with
    | nil =>
      simp [list] at h
      exact absurd h (hn _ _ _)
    | cons v b =>
      simp only [list, List.append_assoc, List.append_cancel_left_eq] at h
      obtain ⟨h1, h2⟩ := hf _ _ _ _ h
      obtain ⟨h3, h4⟩ := listTail_unambiguous hf _ _ _ _ h2
      exact ⟨by rw [h1, h3], h4⟩

end Render

/-! ### C76 -/

/-- C76. The `Debug` text of a list of trace entries determines the list, even with text after it. -/
theorem C76_traces (a b : List Trace) (x y : List Char)
    (h : Render.list Render.trace a ++ x = Render.list Render.trace b ++ y) : a = b ∧ x = y := by
  refine Render.list_unambiguous Render.trace_unambiguous ?_ a b x y h
  intro t x y he
  cases t <;> simp [Render.trace, Render.ref] at he

/-- C76. The same for codes, however characters are shown. -/
theorem C76_codes (dbg : UInt8 → List Char) (a b : List Code) (x y : List Char)
    (h : Render.list (Render.code dbg) a ++ x = Render.list (Render.code dbg) b ++ y) :
    a = b ∧ x = y := by
  refine Render.list_unambiguous (Render.code_unambiguous dbg) ?_ a b x y h
  intro t x y he
  cases t <;> simp [Render.code] at he

/-- C76. The same for single entries, references, codes. -/
theorem C76_single (dbg : UInt8 → List Char) :
    (∀ a b, Render.trace a = Render.trace b → a = b) ∧ (∀ a b, Render.ref a = Render.ref b → a = b) ∧
    (∀ a b, Render.code dbg a = Render.code dbg b → a = b) :=
  ⟨fun a b h => (Render.trace_unambiguous a b [] [] (by rw [h])).1,
    fun a b h => (Render.ref_unambiguous a b [] [] (by rw [h])).1,
    fun a b h => (Render.code_unambiguous dbg a b [] [] (by rw [h])).1⟩

/-- C76. A bit vector built by pushing shows its length and its bits. -/
theorem C76_bits (bits : List Bool) :
    ∃ v, pushAll bits BitVector.new = .ok v ∧
      Render.bitVec v = .ok s!"BitVec: {bits.length}: {bitText bits}".toList := by
  refine ⟨_, Serialise.pushAll_new bits, ?_⟩
  rw [Render.bitVec, BitVector.toBits_ofBits, Ex.ok_bind]
  have : (BitVector.ofBits bits).len = bits.length := by simp [BitVector.ofBits]
  rw [this]
  simp [bitText, Render.decimal, Render.toString_str, pure, Except.pure]

example : String.ofList (Render.list Render.trace [.correct, .actuallyLiteral, .actually ⟨12, 4⟩]) =
    "[✓, L, R[12, 7]]" ∧
    String.ofList (Render.list (Render.code fun _ => "'a'".toList) [.literal 97, .reference ⟨1, 255⟩]) =
    "[L(0x61 'a'), R(-1, 258)]" := by decide +kernel

/-! ### C75 -/

namespace Dump

open Render

theorem hex2_eq (b : UInt8) : String.ofList (hex2 b) = hexByte b := by
  have hb := b.toNat_lt
  unfold hex2 hexByte
  congr 1
  split
  · rename_i h
    rw [Nat.toDigits_of_lt_base h, show b.toNat / 16 = 0 by omega, show b.toNat % 16 = b.toNat by omega]
    rfl
  · rename_i h
    rw [Nat.toDigits_of_base_le (by omega) (by omega), Nat.toDigits_of_lt_base (by omega)]
    rfl

theorem codeLine_eq (dbg : UInt8 → List Char) (c : Code) :
    String.ofList (codeLine dbg c) = dumpCode (fun b => String.ofList (dbg b)) c := by
  apply String.toList_inj.1
  rw [String.toList_ofList]
  match c with
  | .literal b =>
    show "    - lit: 0x".toList ++ hex2 b ++ ": ".toList ++ dbg b =
      s!"    - lit: 0x{hexByte b}: {String.ofList (dbg b)}".toList
    simp only [toString_str, ← hex2_eq, String.toList_append, String.toList_ofList]
  | .reference r =>
    show "    - backref: ".toList ++ decimal r.dist.toNat ++ " byte(s) back, ".toList ++
      decimal r.run ++ " bytes long".toList =
      s!"    - backref: {r.dist.toNat} byte(s) back, {r.run} bytes long".toList
    simp only [toString_str, decimal, Nat.toString_eq_repr, Nat.toList_repr, String.toList_append]

theorem blockLines_eq (dbg : UInt8 → List Char) (id : Nat) {b : Block} {off : Nat} {bs : List Bool}
    (hb : BlockBits LengthSym off b bs) :
    ∃ lines, blockLines dbg id b = .ok lines ∧
      lines.map String.ofList = dumpBlock (fun b => String.ofList (dbg b)) id (headerBits b) b := by
  have hcodes : ∀ codes : List Code, (codes.map (codeLine dbg)).map String.ofList =
      codes.map (dumpCode fun b => String.ofList (dbg b)) := by
    intro codes
    rw [List.map_map]
    apply List.map_congr_left
    intro c _
    exact codeLine_eq dbg c
  have hhead : String.ofList ("block ".toList ++ decimal id ++ ":".toList) = s!"block {id}:" := by
    apply String.toList_inj.1
    simp [toString_str, decimal]
  cases hb with
  | stored data h =>
    refine ⟨_, rfl, ?_⟩
    simp only [List.map_cons, List.map_nil, hhead, dumpBlock]
    congr 2
    apply String.toList_inj.1
    simp [toString_str, decimal]
  | fixed codes bs h =>
    refine ⟨_, rfl, ?_⟩
    simp only [List.map_cons, hcodes, hhead, dumpBlock]
    congr 2
  | dynamic lit dist alpha codes trees hdr bs h1 h2 h3 h4 h5 =>
    obtain ⟨v, k1, k2⟩ := C76_bits hdr
    rw [h4] at k1
    cases k1
    have ht : headerBits (.dynamicHuffman trees codes) = hdr := by
      cases Serialise.pushAll_eq h4
      rw [headerBits, BitVector.toBits_ofBits]
      rfl
    refine ⟨_, by rw [blockLines, k2]; rfl, ?_⟩
    simp only [List.map_cons, hcodes, hhead, dumpBlock, ht]
    congr 2
    apply String.toList_inj.1
    simp [toString_str]

/-- The printed lines as one text. -/
def joined (lines : List String) : List Char := lines.flatMap fun l => l.toList ++ ['\n']

theorem print_eq (lines : List (List Char)) : print lines = joined (lines.map String.ofList) := by
  unfold print joined
  rw [List.flatMap_map]
  congr 1
  funext l
  simp

theorem loop_eq (dbg : UInt8 → List Char) (fuel : Nat) (it : BlockIter) (id : Nat)
    (hb : ∀ n b, item n it = some (.ok b) → ∃ off bs, BlockBits LengthSym off b bs)
    (r : Except Fail Unit) (bl : List Block) (it' : BlockIter)
    (h : ∀ acc, collectLoop fuel it acc = (r, acc ++ bl, it')) :
    loop dbg fuel it id = (r, joined (dumpText (fun b => String.ofList (dbg b)) id bl)) := by
  induction fuel generalizing it id r bl it' with
  | zero =>
    have := h []
    simp only [collectLoop, List.nil_append, Prod.mk.injEq] at this
    obtain ⟨rfl, rfl, _⟩ := this
    rfl
  | succ fuel ih =>
    rw [loop]
    cases hn : it.next with
    | mk o it1 =>
      cases o with
      | none =>
        have := h []
        rw [collectLoop, hn] at this
        simp only [List.nil_append, Prod.mk.injEq] at this
        obtain ⟨rfl, rfl, _⟩ := this
        rfl
      | some x =>
        cases x with
        | error e =>
          have := h []
          rw [collectLoop, hn] at this
          simp only [List.nil_append, Prod.mk.injEq] at this
          obtain ⟨rfl, rfl, _⟩ := this
          rfl
        | ok b =>
          obtain ⟨r1, bl1, it1', h1, _⟩ := Cat.loop_eq fuel it1
          have := h []
          rw [collectLoop, hn] at this
          dsimp only at this
          rw [h1] at this
          simp only [List.nil_append, Prod.mk.injEq] at this
          obtain ⟨rfl, rfl, rfl⟩ := this
          obtain ⟨off, bs, hbb⟩ := hb 0 b (by show it.next.1 = _; rw [hn])
          obtain ⟨lines, k1, k2⟩ := blockLines_eq dbg id hbb
          dsimp only
          rw [k1]
          dsimp only
          rw [ih it1 (id + 1) ?_ r1 bl1 it1' h1]
          · rw [print_eq, k2]
            simp [joined, dumpText]
          · intro n b' hx
            refine hb (n + 1) b' ?_
            show (after n it.next.2).next.1 = _
            rw [hn]
            exact hx

/-- After a header, `run` in terms of the blocks. -/
theorem run_eq (dbg : UInt8 → List Char) (input rest hd : List UInt8)
    (hh : Gzip.discardHeader input = .ok hd rest) :
    ∃ r bl it', collect rest = (r, bl, it') ∧
      (∀ n b, bl[n]? = some b → item n (parseDeflate rest) = some (.ok b)) ∧
      ((item bl.length (parseDeflate rest) = none ∧ r = .ok ()) ∨
        ∃ e, item bl.length (parseDeflate rest) = some (.error (.err e)) ∧ r = .error (.err e)) ∧
      run dbg input = (r, joined (dumpText (fun b => String.ofList (dbg b)) 0 bl)) := by
  obtain ⟨r, bl, it', h1, h2, h3, _⟩ := Cat.run_eq input [] rest hd none hh
  refine ⟨r, bl, it', h1, h2, h3, ?_⟩
  rw [run, hh]
  obtain ⟨r', bl', it'', k, _⟩ := Cat.loop_eq (8 * rest.length + 2) (parseDeflate rest)
  have := k []
  rw [show collectLoop (8 * rest.length + 2) (parseDeflate rest) [] = collect rest from rfl, h1] at this
  simp only [List.nil_append, Prod.mk.injEq] at this
  obtain ⟨rfl, rfl, rfl⟩ := this
  exact loop_eq dbg _ _ 0 (fun n b hx => item_blockBits hx) r bl it' k

end Dump

/-- C75. On a gzip header followed by a deflate stream (and anything after it) dump succeeds and prints the
text for its blocks. -/
theorem C75_dump (dbg : UInt8 → List Char) (hd : GzHeader) (hv : hd.Valid) (d trailer : List UInt8)
    (blocks : List Block) (hb : DeflateBytes blocks d) :
    Dump.run dbg (hd.bytes ++ d ++ trailer) =
      (.ok (), Dump.joined (dumpText (fun b => String.ofList (dbg b)) 0 blocks)) := by
  have hh := C57_accepted hd hv (d ++ trailer)
  rw [← List.append_assoc] at hh
  obtain ⟨r, bl, it', h1, h2, h3, h4⟩ := Dump.run_eq dbg _ _ _ hh
  have hp := (C22_parse_iff (d ++ trailer) blocks trailer).2 ⟨d, rfl, hb⟩
  rw [parseAll, h1] at hp
  cases r with
  | error e => cases hp
  | ok u =>
    dsimp only at hp
    simp only [Except.ok.injEq, Prod.mk.injEq] at hp
    obtain ⟨rfl, _⟩ := hp
    exact h4

/-- C75 on any input with a header: let `blocks` be what the parser yields before its first error or its end.
Exactly their text is printed, and then the error, if any, is reported; there is no panic. -/
theorem C75_errors (dbg : UInt8 → List Char) (hd : GzHeader) (hv : hd.Valid) (rest : List UInt8) :
    ∃ blocks : List Block, (∀ n b, blocks[n]? = some b → item n (parseDeflate rest) = some (.ok b)) ∧
      (Dump.run dbg (hd.bytes ++ rest)).2 =
        Dump.joined (dumpText (fun b => String.ofList (dbg b)) 0 blocks) ∧
      ((item blocks.length (parseDeflate rest) = none ∧ (Dump.run dbg (hd.bytes ++ rest)).1 = .ok ()) ∨
       ∃ e, item blocks.length (parseDeflate rest) = some (.error (.err e)) ∧
         (Dump.run dbg (hd.bytes ++ rest)).1 = .error (.err e)) := by
  have hh := C57_accepted hd hv rest
  obtain ⟨r, bl, it', h1, h2, h3, h4⟩ := Dump.run_eq dbg _ _ _ hh
  rw [h4]
  exact ⟨bl, h2, rfl, h3⟩

/-- C75. Without a valid header nothing is printed. -/
theorem C75_no_header (dbg : UInt8 → List Char) (input : List UInt8)
    (h : ¬ ∃ (hd : GzHeader) (rest : List UInt8), hd.Valid ∧ input = hd.bytes ++ rest) :
    ∃ e, Dump.run dbg input = (.error (.err e), []) := by
  obtain ⟨e, s, he⟩ := C57_others_refused input h
  exact ⟨e, by rw [Dump.run, he]⟩

namespace Dump

open Render

theorem joined_inj {a b : List String} (ha : ∀ l ∈ a, '\n' ∉ l.toList) (hb : ∀ l ∈ b, '\n' ∉ l.toList)
    (h : joined a = joined b) : a = b := by
  induction a generalizing b with
  | nil =>
    cases b with
    | nil => rfl
    | cons y b => simp [joined] at h
  | cons x a ih =>
    cases b with
    | nil => simp [joined] at h
    | cons y b =>
      have h' : x.toList ++ '\n' :: joined a = y.toList ++ '\n' :: joined b := by
        simpa [joined] using h
      obtain ⟨h1, h2⟩ := cut (ha x (by simp)) (hb y (by simp)) h'
      rw [String.toList_inj.1 h1, ih (fun l hl => ha l (by simp [hl])) (fun l hl => hb l (by simp [hl])) h2]

theorem codeLine_lit (dbg : UInt8 → List Char) (b : UInt8) : codeLine dbg (.literal b) =
    ' ' :: ' ' :: ' ' :: ' ' :: '-' :: ' ' :: 'l' :: 'i' :: 't' :: ':' :: ' ' :: '0' :: 'x' ::
      (hex2 b ++ ':' :: ' ' :: dbg b) := by
  show "    - lit: 0x".toList ++ hex2 b ++ ": ".toList ++ dbg b = _
  simp

theorem codeLine_ref (dbg : UInt8 → List Char) (r : Ref) : codeLine dbg (.reference r) =
    ' ' :: ' ' :: ' ' :: ' ' :: '-' :: ' ' :: 'b' :: 'a' :: 'c' :: 'k' :: 'r' :: 'e' :: 'f' :: ':' :: ' ' ::
      (decimal r.dist.toNat ++ ' ' :: ("byte(s) back, ".toList ++
        (decimal r.run ++ ' ' :: "bytes long".toList))) := by
  show "    - backref: ".toList ++ decimal r.dist.toNat ++ " byte(s) back, ".toList ++
      decimal r.run ++ " bytes long".toList = _
  simp

theorem codeLine_inj (dbg : UInt8 → List Char) {a b : Code} (h : codeLine dbg a = codeLine dbg b) :
    a = b := by
  match a, b with
  | .literal u, .literal v =>
    rw [codeLine_lit, codeLine_lit] at h
    simp only [List.cons.injEq, true_and] at h
    rw [(hex2_inj h).1]
  | .literal u, .reference r =>
    rw [codeLine_lit, codeLine_ref] at h
    simp at h
  | .reference r, .literal v =>
    rw [codeLine_lit, codeLine_ref] at h
    simp at h
  | .reference r, .reference r' =>
    rw [codeLine_ref, codeLine_ref] at h
    simp only [List.cons.injEq, true_and] at h
    obtain ⟨h1, h2⟩ := cut_decimal (by decide) h
    rw [List.append_cancel_left_eq] at h2
    obtain ⟨h3, _⟩ := cut_decimal (by decide) h2
    rw [ref_eq h1 h3]

theorem codeLine_head (dbg : UInt8 → List Char) (c : Code) : (codeLine dbg c).head? = some ' ' := by
  match c with
  | .literal b => rw [codeLine_lit]; rfl
  | .reference r => rw [codeLine_ref]; rfl

theorem dumpCode_toList (dbg : UInt8 → String) (c : Code) :
    (dumpCode dbg c).toList = codeLine (fun b => (dbg b).toList) c := by
  have := congrArg String.toList (codeLine_eq (fun b => (dbg b).toList) c)
  simp only [String.toList_ofList, String.ofList_toList] at this
  exact this.symm

/-- The lines of the blocks from number `id` on start with a `b`, or there are none. -/
theorem dumpText_head (dbg : UInt8 → String) (id : Nat) (bl : List Block) :
    dumpText dbg id bl = [] ∨ ∃ l ls, dumpText dbg id bl = l :: ls ∧ l.toList.head? = some 'b' := by
  cases bl with
  | nil => exact .inl rfl
  | cons b bl =>
    right
    have hh : (s!"block {id}:").toList.head? = some 'b' := by simp [toString_str]
    cases b with
    | uncompressed d => exact ⟨_, _, rfl, hh⟩
    | fixedHuffman cs => exact ⟨_, _, rfl, hh⟩
    | dynamicHuffman t cs => exact ⟨_, _, rfl, hh⟩

theorem codes_cut (dbg : UInt8 → String) {cs cs' : List Code} {xs ys : List String}
    (hx : xs = [] ∨ ∃ l ls, xs = l :: ls ∧ l.toList.head? = some 'b')
    (hy : ys = [] ∨ ∃ l ls, ys = l :: ls ∧ l.toList.head? = some 'b')
    (h : cs.map (dumpCode dbg) ++ xs = cs'.map (dumpCode dbg) ++ ys) : cs = cs' ∧ xs = ys := by
  have hne : ∀ (c : Code) (l : String), l.toList.head? = some 'b' → dumpCode dbg c ≠ l := by
    intro c l hl he
    rw [← he, dumpCode_toList, codeLine_head] at hl
    simp at hl
  induction cs generalizing cs' with
  | nil =>
    cases cs' with
    | nil => exact ⟨rfl, by simpa using h⟩
    | cons c cs' =>
      exfalso
      rcases hx with rfl | ⟨l, ls, rfl, hl⟩
      · simp at h
      · simp only [List.map_nil, List.nil_append, List.map_cons, List.cons_append, List.cons.injEq] at h
        exact hne _ _ hl h.1.symm
  | cons c cs ih =>
    cases cs' with
    | nil =>
      exfalso
      rcases hy with rfl | ⟨l, ls, rfl, hl⟩
      · simp at h
      · simp only [List.map_nil, List.nil_append, List.map_cons, List.cons_append, List.cons.injEq] at h
        exact hne _ _ hl h.1
    | cons c' cs' =>
      simp only [List.map_cons, List.cons_append, List.cons.injEq] at h
      obtain ⟨h1, h2⟩ := ih h.2
      have h3 := congrArg String.toList h.1
      rw [dumpCode_toList, dumpCode_toList] at h3
      exact ⟨by rw [codeLine_inj _ h3, h1], h2⟩

/-- The second line of a block. -/
def kindLine (b : Block) : List Char :=
  match b with
  | .uncompressed data => " - uncompressed: ".toList ++ decimal data.length ++ " bytes".toList
  | .fixedHuffman _ => " - fixed huffman:".toList
  | .dynamicHuffman _ _ => " - dynamic huffman: BitVec: ".toList ++ decimal (headerBits b).length ++
      ": ".toList ++ (headerBits b).map fun b => if b then '1' else '0'

theorem dumpBlock_eq (dbg : UInt8 → String) (id : Nat) (b : Block) :
    dumpBlock dbg id (headerBits b) b = s!"block {id}:" :: String.ofList (kindLine b) ::
      (blockCodes b).map (dumpCode dbg) := by
  cases b with
  | uncompressed d =>
    show [_, _] = [_, _]
    congr 2
    apply String.toList_inj.1
    rw [String.toList_ofList]
    show _ = " - uncompressed: ".toList ++ decimal d.length ++ " bytes".toList
    simp [toString_str, decimal]
  | fixedHuffman cs => rfl
  | dynamicHuffman t cs =>
    show _ :: _ :: _ = _ :: _ :: _
    congr 2
    apply String.toList_inj.1
    rw [String.toList_ofList]
    show _ = " - dynamic huffman: BitVec: ".toList ++ decimal (headerBits _).length ++
      ": ".toList ++ (headerBits _).map fun b => if b then '1' else '0'
    simp [toString_str, decimal, bitText]

theorem bits_inj {a b : List Bool} (h : (a.map fun b => if b then '1' else '0') =
    b.map fun b => if b then '1' else '0') : a = b := by
  induction a generalizing b with
  | nil => cases b with
    | nil => rfl
    | cons y b => simp at h
  | cons x a ih => cases b with
    | nil => simp at h
    | cons y b =>
      simp only [List.map_cons, List.cons.injEq] at h
      rw [ih h.2]
      cases x <;> cases y <;> simp_all

/-- What the second line and the codes say. -/
theorem kind_inj {b b' : Block} {off off' : Nat} {bs bs' : List Bool}
    (hb : BlockBits LengthSym off b bs) (hb' : BlockBits LengthSym off' b' bs')
    (hk : kindLine b = kindLine b') (hc : blockCodes b = blockCodes b') :
    eraseStored b = eraseStored b' := by
  have ht : ∀ {b : Block} {off : Nat} {bs : List Bool} (t : BitVector) (cs : List Code),
      BlockBits LengthSym off b bs → b = .dynamicHuffman t cs →
      t = BitVector.ofBits (headerBits (.dynamicHuffman t cs)) := by
    intro b off bs t cs h he
    subst he
    cases h with
    | dynamic lit dist alpha codes trees hdr bs h1 h2 h3 h4 h5 =>
      cases Serialise.pushAll_eq h4
      rw [headerBits, BitVector.toBits_ofBits]
      rfl
  match b, b' with
  | .uncompressed d, .uncompressed d' =>
    change " - uncompressed: ".toList ++ decimal d.length ++ " bytes".toList =
      " - uncompressed: ".toList ++ decimal d'.length ++ " bytes".toList at hk
    rw [List.append_assoc, List.append_assoc, List.append_cancel_left_eq] at hk
    have hk : decimal d.length ++ ' ' :: "bytes".toList = decimal d'.length ++ ' ' :: "bytes".toList := hk
    have := (cut_decimal (by decide) hk).1
    show Block.uncompressed _ = Block.uncompressed _
    rw [this]
  | .fixedHuffman cs, .fixedHuffman cs' => exact congrArg Block.fixedHuffman hc
  | .dynamicHuffman t cs, .dynamicHuffman t' cs' =>
    change " - dynamic huffman: BitVec: ".toList ++ decimal (headerBits _).length ++
      ": ".toList ++ _ = " - dynamic huffman: BitVec: ".toList ++ decimal (headerBits _).length ++
      ": ".toList ++ _ at hk
    simp only [List.append_assoc, List.append_cancel_left_eq] at hk
    obtain ⟨_, h2⟩ := cut_decimal (c := ':') (by decide) (by simpa using hk)
    simp only [List.cons.injEq, true_and] at h2
    have h3 := bits_inj h2
    have e1 := ht t cs hb rfl
    have e2 := ht t' cs' hb' rfl
    show Block.dynamicHuffman t cs = Block.dynamicHuffman t' cs'
    change cs = cs' at hc
    rw [e1, e2, h3, hc]
  | .uncompressed d, .fixedHuffman cs =>
    change " - uncompressed: ".toList ++ _ ++ _ = " - fixed huffman:".toList at hk
    simp at hk
  | .uncompressed d, .dynamicHuffman t cs =>
    change " - uncompressed: ".toList ++ _ ++ _ = " - dynamic huffman: BitVec: ".toList ++ _ ++ _ ++ _ at hk
    simp at hk
  | .fixedHuffman cs, .uncompressed d =>
    change " - fixed huffman:".toList = " - uncompressed: ".toList ++ _ ++ _ at hk
    simp at hk
  | .fixedHuffman cs, .dynamicHuffman t cs' =>
    change " - fixed huffman:".toList = " - dynamic huffman: BitVec: ".toList ++ _ ++ _ ++ _ at hk
    simp at hk
  | .dynamicHuffman t cs, .uncompressed d =>
    change " - dynamic huffman: BitVec: ".toList ++ _ ++ _ ++ _ = " - uncompressed: ".toList ++ _ ++ _ at hk
    simp at hk
  | .dynamicHuffman t cs, .fixedHuffman cs' =>
    change " - dynamic huffman: BitVec: ".toList ++ _ ++ _ ++ _ = " - fixed huffman:".toList at hk
    simp at hk

theorem dumpText_inj (dbg : UInt8 → String) (id : Nat) (bl bl' : List Block)
    (hb : ∀ b ∈ bl, ∃ off bs, BlockBits LengthSym off b bs)
    (hb' : ∀ b ∈ bl', ∃ off bs, BlockBits LengthSym off b bs)
    (h : dumpText dbg id bl = dumpText dbg id bl') : bl.map eraseStored = bl'.map eraseStored := by
  induction bl generalizing id bl' with
  | nil =>
    cases bl' with
    | nil => rfl
    | cons b bl' => rw [dumpText, dumpText, dumpBlock_eq] at h; simp at h
  | cons b bl ih =>
    cases bl' with
    | nil => rw [dumpText, dumpText, dumpBlock_eq] at h; simp at h
    | cons b' bl' =>
      rw [dumpText, dumpText, dumpBlock_eq, dumpBlock_eq] at h
      simp only [List.cons_append, List.cons.injEq, true_and] at h
      obtain ⟨h1, h2⟩ := h
      have h1 := congrArg String.toList h1
      rw [String.toList_ofList, String.toList_ofList] at h1
      obtain ⟨h3, h4⟩ := codes_cut dbg (dumpText_head _ _ _) (dumpText_head _ _ _) h2
      obtain ⟨off, bs, k⟩ := hb b (by simp)
      obtain ⟨off', bs', k'⟩ := hb' b' (by simp)
      rw [List.map_cons, List.map_cons, kind_inj k k' h1 h3,
        ih (id + 1) bl' (fun x hx => hb x (by simp [hx])) (fun x hx => hb' x (by simp [hx])) h4]

theorem not_mem_hex2 (b : UInt8) : '\n' ∉ hex2 b := by
  have : ∀ n, n < 16 → Nat.digitChar n ≠ '\n' := by decide
  have hb := b.toNat_lt
  intro h
  simp only [hex2, List.mem_cons, List.not_mem_nil, or_false] at h
  rcases h with h | h
  · exact this _ (by omega) h.symm
  · exact this _ (by omega) h.symm

theorem dumpText_lines (dbg : UInt8 → String) (hn : ∀ b, '\n' ∉ (dbg b).toList) (id : Nat)
    (bl : List Block) : ∀ l ∈ dumpText dbg id bl, '\n' ∉ l.toList := by
  induction bl generalizing id with
  | nil => intro l hl; cases hl
  | cons b bl ih =>
    intro l hl
    rw [dumpText, dumpBlock_eq] at hl
    simp only [List.cons_append, List.mem_cons, List.mem_append, List.mem_map] at hl
    have hd := fun n => not_mem_decimal (c := '\n') (by decide) n
    rcases hl with rfl | rfl | ⟨c, _, rfl⟩ | hl
    · have := hd id
      simpa [toString_str, decimal] using this
    · rw [String.toList_ofList]
      match b with
      | .uncompressed d =>
        show _ ∉ " - uncompressed: ".toList ++ decimal d.length ++ " bytes".toList
        have := hd d.length
        simpa using this
      | .fixedHuffman cs =>
        show _ ∉ " - fixed huffman:".toList
        simp
      | .dynamicHuffman t cs =>
        show _ ∉ " - dynamic huffman: BitVec: ".toList ++ decimal (headerBits _).length ++
          ": ".toList ++ (headerBits _).map fun b => if b then '1' else '0'
        have := hd (headerBits (.dynamicHuffman t cs)).length
        simp only [List.mem_append, not_or, List.mem_map, not_exists, not_and]
        refine ⟨⟨⟨by simp, this⟩, by simp⟩, ?_⟩
        intro x _ hx
        cases x <;> simp at hx
    · rw [dumpCode_toList]
      match c with
      | .literal b =>
        rw [codeLine_lit]
        have := not_mem_hex2 b
        have := hn b
        simp_all
      | .reference r =>
        rw [codeLine_ref]
        have := hd r.dist.toNat
        have := hd r.run
        simp_all
    · exact ih _ l hl

end Dump

/-- C75. The printed text determines the blocks, up to the contents of stored ones: two files that are dumped
alike have the same block types, headers and codes. (`dbg` may be any way of showing characters that never
contains a line end.) -/
theorem C75_faithful (dbg : UInt8 → List Char) (hn : ∀ b, '\n' ∉ dbg b) (hd hd' : GzHeader) (hv : hd.Valid)
    (hv' : hd'.Valid) (d d' trailer trailer' : List UInt8) (blocks blocks' : List Block)
    (hb : DeflateBytes blocks d) (hb' : DeflateBytes blocks' d')
    (h : (Dump.run dbg (hd.bytes ++ d ++ trailer)).2 = (Dump.run dbg (hd'.bytes ++ d' ++ trailer')).2) :
    blocks.map eraseStored = blocks'.map eraseStored := by
  rw [C75_dump dbg hd hv d trailer blocks hb, C75_dump dbg hd' hv' d' trailer' blocks' hb'] at h
  have hn' : ∀ b, '\n' ∉ (String.ofList (dbg b)).toList := by
    intro b; rw [String.toList_ofList]; exact hn b
  have := Dump.joined_inj (Dump.dumpText_lines _ hn' _ _) (Dump.dumpText_lines _ hn' _ _) h
  have key : ∀ {off : Nat} {bl : List Block} {bits : List Bool}, StreamBits LengthSym off bl bits →
      ∀ b ∈ bl, ∃ off bs, BlockBits LengthSym off b bs := by
    intro off bl bits h
    induction h with
    | last off b bs h => intro x hx; simp only [List.mem_singleton] at hx; subst hx; exact ⟨_, _, h⟩
    | cons off b rest bs rs h _ ih =>
      intro x hx
      rcases List.mem_cons.1 hx with rfl | hx
      · exact ⟨_, _, h⟩
      · exact ih x hx
  obtain ⟨_, k, _⟩ := hb
  obtain ⟨_, k', _⟩ := hb'
  exact Dump.dumpText_inj _ 0 blocks blocks' (key k) (key k') this

/-- A header with a name, a fixed block holding `a`, and a trailer. -/
example : (Dump.run (fun b => "'".toList ++ [Char.ofNat b.toNat] ++ "'".toList)
      ([0x1f, 0x8b, 8, 8, 0, 0, 0, 0, 0, 3, 97, 0] ++ exampleStream)).2 =
    "block 0:\n - fixed huffman:\n    - lit: 0x61: 'a'\n".toList := by decide +kernel

end Rezip
