import Verif.Props.Gzip
import Verif.Props.Parse
import Verif.Props.Circles
import Verif.Model.Tools

/-!
# C62: the cat tool
-/

namespace Rezip

open Rezip.Spec Parse Serialise DecState

namespace Cat

/-- The loop, in terms of the blocks the iterator yields. -/
theorem loop_eq (fuel : Nat) (it : BlockIter) :
    ∃ r bl it', (∀ acc, collectLoop fuel it acc = (r, acc ++ bl, it')) ∧
      (∀ s, ∃ it'', loop fuel it s =
        match bl.forM decompressedBlock s with
        | .ok _ s' => (r, s', it')
        | .error e s' => (.error e, s', it'')) ∧
      (∀ n b, bl[n]? = some b → item n it = some (.ok b)) ∧
      (r = .error .diverge ∨ (item bl.length it = none ∧ r = .ok ()) ∨
        ∃ e, item bl.length it = some (.error e) ∧ r = .error e) := by
  induction fuel generalizing it with
  | zero =>
    exact ⟨.error .diverge, [], it, fun acc => by rw [collectLoop, List.append_nil],
      fun s => ⟨it, rfl⟩, by simp, .inl rfl⟩
  | succ fuel ih =>
    cases hn : it.next with
    | mk o it1 =>
      cases o with
      | none =>
        refine ⟨.ok (), [], it1, ?_, ?_, by simp, .inr (.inl ⟨?_, rfl⟩)⟩
        · intro acc; rw [collectLoop, hn]; simp
        · intro s; exact ⟨it1, by rw [loop, hn]; rfl⟩
        · show it.next.1 = none; rw [hn]
      | some x =>
        cases x with
        | error e =>
          refine ⟨.error e, [], it1, ?_, ?_, by simp, .inr (.inr ⟨e, ?_, rfl⟩)⟩
          · intro acc; rw [collectLoop, hn]; simp
          · intro s; exact ⟨it1, by rw [loop, hn]; rfl⟩
          · show it.next.1 = _; rw [hn]
        | ok b =>
          obtain ⟨r, bl, it', h1, h2, h3, h4⟩ := ih it1
          have hitem : ∀ n, item (n + 1) it = item n it1 := by
            intro n
            show (after n it.next.2).next.1 = _
            rw [hn]
            rfl
          refine ⟨r, b :: bl, it', ?_, ?_, ?_, ?_⟩
          · intro acc
            rw [collectLoop, hn]
            dsimp only
            rw [h1]
            simp
          · intro s
            rw [List.forM_eq_forM, List.forM_cons, ES.bind_apply, loop, hn]
            dsimp only
            cases hb : decompressedBlock b s with
            | ok u s' =>
              obtain ⟨it'', h⟩ := h2 s'
              exact ⟨it'', h⟩
            | error e s' => exact ⟨it1, rfl⟩
          · intro n x hx
            cases n with
            | zero =>
              simp only [List.getElem?_cons_zero, Option.some.injEq] at hx
              subst hx
              show it.next.1 = _
              rw [hn]
            | succ n =>
              rw [hitem]
              exact h3 n x (by simpa using hx)
          · rw [List.length_cons, hitem]
            exact h4

theorem new_eq : CircularBuffer.new = .ok (CircularBuffer.ofHist 32768 []) :=
  CircularBuffer.withCapacity_ok (cap := 32 * 1024) (by decide)

/-- What an output that accepts `room` more bytes has of `x`. -/
def accepted (room : Option Nat) (x : List UInt8) : List UInt8 :=
  match room with
  | none => x
  | some r => x.take r

/-- Whether such an output accepts all of `x`. -/
def fits (room : Option Nat) (x : List UInt8) : Prop :=
  match room with
  | none => True
  | some r => x.length ≤ r

theorem writeAll_cases (x : List UInt8) (out : List UInt8) (room : Option Nat) :
    (fits room x ∧ ∃ room', writeAll x ⟨out, room⟩ = .ok () ⟨out ++ x, room'⟩ ∧
      (room = none → room' = none)) ∨
    (¬ fits room x ∧ ∃ room', writeAll x ⟨out, room⟩ =
      .error (.err .sink) ⟨out ++ accepted room x, room'⟩) := by
  unfold writeAll fits accepted
  cases room with
  | none => exact .inl ⟨trivial, none, rfl, fun _ => rfl⟩
  | some r =>
    dsimp only
    by_cases h : x.length ≤ r
    · rw [if_pos h]; exact .inl ⟨h, _, rfl, by simp⟩
    · rw [if_neg h]; exact .inr ⟨h, _, rfl⟩

theorem accepted_of_fits {room : Option Nat} {x : List UInt8} (h : fits room x) :
    accepted room x = x := by
  cases room with
  | none => rfl
  | some r => exact List.take_of_length_le h

/-- After a header, `run` in terms of the blocks. -/
theorem run_eq (input out rest : List UInt8) (hd : List UInt8) (room : Option Nat)
    (hh : Gzip.discardHeader input = .ok hd rest) :
    ∃ r bl it', collect rest = (r, bl, it') ∧
      (∀ n b, bl[n]? = some b → item n (parseDeflate rest) = some (.ok b)) ∧
      ((item bl.length (parseDeflate rest) = none ∧ r = .ok ()) ∨
        ∃ e, item bl.length (parseDeflate rest) = some (.error (.err e)) ∧ r = .error (.err e)) ∧
      (run input ⟨out, room⟩).2.out =
        out ++ accepted room (lzDecodable 32768 [] (bl.flatMap lzCodes)) ∧
      (room = none → (run input ⟨out, room⟩).2.room = none) ∧
      (run input ⟨out, room⟩).1 =
        (open Classical in
          if ¬ fits room (lzDecodable 32768 [] (bl.flatMap lzCodes)) then .error (.err .sink)
          else if lzExpand 32768 [] (bl.flatMap lzCodes) = none then .error (.err .distMustFit)
          else r) := by
  obtain ⟨r, bl, it', h1, h2, h3, h4⟩ := loop_eq (8 * rest.length + 2) (parseDeflate rest)
  have hc : collect rest = (r, bl, it') := by rw [collect, h1]; rfl
  refine ⟨r, bl, it', hc, h3, ?_, ?_⟩
  · rcases h4 with h4 | h4 | ⟨e, h4, h5⟩
    · exfalso
      have : parseAll rest = .error .diverge := by rw [parseAll, hc, h4]
      obtain ⟨x, hx⟩ := parseAll_error this
      cases hx
    · exact .inl h4
    · right
      rcases C17_total rest bl.length with h | ⟨b, h⟩ | ⟨x, h⟩
      · rw [h] at h4; cases h4
      · rw [h] at h4; cases h4
      · rw [h] at h4; cases h4; exact ⟨x, h, h5⟩
  · obtain ⟨it'', h2⟩ := h2 ⟨CircularBuffer.ofHist 32768 [], ⟨out, room⟩⟩
    have hrun : run input ⟨out, room⟩ =
        match bl.forM decompressedBlock ⟨CircularBuffer.ofHist 32768 [], ⟨out, room⟩⟩ with
        | .ok _ s' => (r, s'.into)
        | .error e s' => (.error e, s'.into) := by
      rw [run, hh]
      dsimp only
      rw [new_eq]
      dsimp only
      rw [h2]
      cases bl.forM decompressedBlock ⟨CircularBuffer.ofHist 32768 [], ⟨out, room⟩⟩ <;> rfl
    have hap := blocks_appends (W := 32768) (by omega) (by omega) bl [] ⟨out, room⟩
    unfold Appends expandResult at hap
    rcases writeAll_cases (lzDecodable 32768 [] (bl.flatMap lzCodes)) out room with
      ⟨hf, room', hw, hr⟩ | ⟨hf, room', hw⟩
    · rw [hw] at hap
      dsimp only at hap
      rw [accepted_of_fits hf, if_neg (by simpa using hf)]
      rcases lzExpand_eq 32768 [] (bl.flatMap lzCodes) with he | he
      · rw [he] at hap
        dsimp only at hap
        rw [hrun, hap, he]
        exact ⟨rfl, hr, rfl⟩
      · rw [he] at hap
        dsimp only at hap
        rw [hrun, hap, he]
        exact ⟨rfl, hr, rfl⟩
    · rw [hw] at hap
      dsimp only at hap
      obtain ⟨y, _, hy⟩ := hap
      rw [hrun, hy, if_pos hf]
      refine ⟨rfl, ?_, rfl⟩
      intro hroom
      rw [hroom] at hf
      exact absurd trivial hf

end Cat

/-! ### C62 -/

/-- C62. On a gzip header followed by a deflate stream (and anything after it), if all references are
within the window, cat succeeds and prints exactly the expansion of all blocks in order. -/
theorem C62_cat (hd : GzHeader) (hv : hd.Valid) (d trailer out x : List UInt8) (blocks : List Block)
    (hb : DeflateBytes blocks d) (hx : lzExpand 32768 [] (blocks.flatMap lzCodes) = some x) :
    Cat.run (hd.bytes ++ d ++ trailer) ⟨out, none⟩ = (.ok (), ⟨out ++ x, none⟩) := by
  have hh := C57_accepted hd hv (d ++ trailer)
  rw [← List.append_assoc] at hh
  obtain ⟨r, bl, it', h1, h2, h3, h4, h5, h6⟩ := Cat.run_eq _ out _ _ none hh
  have hp := (C22_parse_iff (d ++ trailer) blocks trailer).2 ⟨d, rfl, hb⟩
  rw [parseAll, h1] at hp
  cases r with
  | error e => cases hp
  | ok u =>
    dsimp only at hp
    simp only [Except.ok.injEq, Prod.mk.injEq] at hp
    obtain ⟨rfl, _⟩ := hp
    rw [(C35_decodable 32768 [] _).1 x hx, Cat.accepted] at h4
    rw [hx, if_neg (by simp [Cat.fits]), if_neg (by simp)] at h6
    have e : ∀ p : Except Fail Unit × Sink, p = (p.1, ⟨p.2.out, p.2.room⟩) := fun p => rfl
    rw [e (Cat.run _ _), h4, h5 rfl, h6]

/-- C62, the other way: if cat succeeds then the input was such a file, and what it printed is its
expansion (for an output that may fail: all of it was accepted). -/
theorem C62_only (input out : List UInt8) (room : Option Nat) (sink : Sink)
    (h : Cat.run input ⟨out, room⟩ = (.ok (), sink)) :
    ∃ (hd : GzHeader) (d trailer x : List UInt8) (blocks : List Block), hd.Valid ∧
      input = hd.bytes ++ d ++ trailer ∧ DeflateBytes blocks d ∧
      lzExpand 32768 [] (blocks.flatMap lzCodes) = some x ∧ sink.out = out ++ x := by
  cases hh : Gzip.discardHeader input with
  | error e s => rw [Cat.run, hh] at h; cases h
  | ok hdb rest =>
    obtain ⟨rfl, hd, hv, rfl⟩ := C56_header _ _ _ hh
    obtain ⟨r, bl, it', h1, h2, h3, h4, h5, h6⟩ := Cat.run_eq _ out _ _ room hh
    rw [h] at h4 h6
    dsimp only at h4 h6
    split at h6
    · cases h6
    · rename_i hf
      have hf := Classical.not_not.1 hf
      split at h6
      · cases h6
      · rename_i he
        subst h6
        have hp : parseAll rest = .ok (bl, it'.inner.inner) := by rw [parseAll, h1]
        obtain ⟨d, rfl, hb⟩ := (C22_parse_iff _ _ _).1 hp
        rw [Cat.accepted_of_fits hf] at h4
        rcases lzExpand_eq 32768 [] (bl.flatMap lzCodes) with he' | he'
        · exact ⟨hd, d, it'.inner.inner, _, bl, hv, by simp, hb, he', h4⟩
        · exact absurd he' he

/-- C62 on any error: after a header, let `blocks` be what the parser yields before its first error or its
end. What was printed is the decodable part of these blocks, up to what the output accepted. Every failure
is an error value, never a panic. -/
theorem C62_errors (hd : GzHeader) (hv : hd.Valid) (rest out : List UInt8) (room : Option Nat) :
    ∃ blocks : List Block, (∀ n b, blocks[n]? = some b → item n (parseDeflate rest) = some (.ok b)) ∧
      (∀ b, item blocks.length (parseDeflate rest) ≠ some (.ok b)) ∧
      (Cat.run (hd.bytes ++ rest) ⟨out, room⟩).2.out =
        out ++ Cat.accepted room (lzDecodable 32768 [] (blocks.flatMap lzCodes)) ∧
      ((Cat.run (hd.bytes ++ rest) ⟨out, room⟩).1 = .ok () ∨
        ∃ e, (Cat.run (hd.bytes ++ rest) ⟨out, room⟩).1 = .error (.err e)) := by
  have hh := C57_accepted hd hv rest
  obtain ⟨r, bl, it', h1, h2, h3, h4, h5, h6⟩ := Cat.run_eq _ out _ _ room hh
  refine ⟨bl, h2, ?_, h4, ?_⟩
  · intro b hb
    rcases h3 with ⟨h3, _⟩ | ⟨e, h3, _⟩ <;> rw [h3] at hb <;> cases hb
  · rw [h6]
    split
    · exact .inr ⟨_, rfl⟩
    · split
      · exact .inr ⟨_, rfl⟩
      · rcases h3 with ⟨_, h3⟩ | ⟨e, _, h3⟩
        · exact .inl h3
        · exact .inr ⟨e, h3⟩

/-- Without a valid header nothing is printed. -/
theorem C62_no_header (input : List UInt8) (stdout : Sink)
    (h : ¬ ∃ (hd : GzHeader) (rest : List UInt8), hd.Valid ∧ input = hd.bytes ++ rest) :
    ∃ e, Cat.run input stdout = (.error (.err e), stdout) := by
  obtain ⟨e, s, he⟩ := C57_others_refused input h
  exact ⟨e, by rw [Cat.run, he]⟩

/-- A header with a name, a fixed block holding `a`, and a trailer. -/
example : Cat.run ([0x1f, 0x8b, 8, 8, 0, 0, 0, 0, 0, 3, 97, 0] ++ exampleStream) ⟨[], none⟩ =
    (.ok (), ⟨[0x61], none⟩) := by decide +kernel

/-- The same cut short. -/
example : Cat.run ([0x1f, 0x8b, 8, 8, 0, 0, 0, 0, 0, 3, 97, 0] ++ [0x4b]) ⟨[], none⟩ =
    (.error (.err .eof), ⟨[], none⟩) := by decide +kernel

end Rezip
