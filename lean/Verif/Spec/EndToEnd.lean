import Verif.Model.Trace
import Verif.Model.Serialise

/-!
# A stream as data, framing and traces

No function of the repository does this in one go; lib/tests/tracing_size.rs (`run_gzip`) shows the first half:
each block is parsed, decompressed, and its codes are traced at some gzip level, given the bytes before
the block (`preroll`) and its own. Here the trace is kept in its serialised form, next to the data.
-/

namespace Rezip

/-- What is kept of a block: a stored block as it is, otherwise the kind of block (with its header, if
dynamic), the bytes before it and its own, and the serialised trace. -/
inductive Part
  | stored (data : List UInt8)
  | fixed (preroll data trace : List UInt8)
  | dynamic (trees : BitVector) (preroll data trace : List UInt8)

namespace Part

/-- The bytes of the block. -/
def data : Part → List UInt8
  | .stored d => d
  | .fixed _ d _ => d
  | .dynamic _ _ d _ => d

/-- Trace a block whose bytes are `data`. -/
def ofBlock (level : Nat) (preroll data : List UInt8) : Block → Except Fail Part
  | .uncompressed d => .ok (.stored d)
  | .fixedHuffman codes => do
    let tr ← Tracer.tryGzip level preroll data codes
    let bytes ← SerialiseTrace.write tr
    pure (.fixed preroll data bytes)
  | .dynamicHuffman trees codes => do
    let tr ← Tracer.tryGzip level preroll data codes
    let bytes ← SerialiseTrace.write tr
    pure (.dynamic trees preroll data bytes)

/-- The codes a serialised trace stands for. -/
def codes (level : Nat) (preroll data trace : List UInt8) : Except Fail (List Code) := do
  let tr ← SerialiseTrace.read trace
  let config ← Config.gzip level
  let refs ← AllRefs.withSixteen preroll data (config.wams.insertOnlyBelowLength.getD 65535)
  Tracing.restore tr { config := config, allRefs := refs }

/-- The block again. -/
def block (level : Nat) : Part → Except Fail Block
  | .stored d => .ok (.uncompressed d)
  | .fixed preroll data trace => do
    let cs ← codes level preroll data trace
    pure (.fixedHuffman cs)
  | .dynamic trees preroll data trace => do
    let cs ← codes level preroll data trace
    pure (.dynamicHuffman trees cs)

end Part

/-- All blocks, with the bytes before and of each. -/
def describe (level : Nat) : List (Block × List UInt8 × List UInt8) → Except Fail (List Part)
  | [] => .ok []
  | (b, preroll, data) :: rest => do
    let p ← Part.ofBlock level preroll data b
    let ps ← describe level rest
    pure (p :: ps)

/-- The blocks the parts stand for. -/
def partBlocks (level : Nat) : List Part → Except Fail (List Block)
  | [] => .ok []
  | p :: ps => do
    let b ← p.block level
    let bs ← partBlocks level ps
    pure (b :: bs)

/-- The compressed stream again. -/
def recreate (level : Nat) (parts : List Part) : Except Fail (List UInt8) := do
  let blocks ← partBlocks level parts
  Serialise.recompress blocks

end Rezip
