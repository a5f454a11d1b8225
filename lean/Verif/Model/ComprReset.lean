import Verif.Model.Compress
/-! # `reset` of the compressor and of the decompressor (`compress.tcc`) -/
namespace Imt.Compr
open Imt

/-- `Compress::reset` (compress.tcc:22-29). -/
def Comp.reset (s : Comp) : Comp := { s with nextCode := firstCode, lastSeq := none, db := [] }

/-- `Decompress::reset` (compress.tcc:298-303). -/
def Dec.reset (d : Dec) : Dec := { d with db := [], prev := none }

end Imt.Compr
