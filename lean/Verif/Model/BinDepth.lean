import Verif.Model.BinJson
/-!
# The binary parser on a finite stack

`BinaryParser::parseItem` calls itself for the value behind every key (binjson.tcc:400, 406) and, through `parseArray`,
`parseObject` and `parseDiff`, for every item (binjson.tcc:245, 256, 441-448). As in `ParserDepth` the number of its calls
that may be open at once is an argument.
-/
namespace Imt.BinJson
open Imt

/-- One call of `parseItem` (binjson.tcc:362-411), with `parseDiff` (441-448), `parseArray` (240-248) and `parseObject`
(250-259) up to their loops; `item` is the call of itself, `items` the loop over the items of a container. -/
def itemBody (env : Env) (item : PS → Res (BV × PS)) (items : Nat → Nat → PS → Res (List BV × PS)) (ps : PS) : Res (BV × PS) := do
  let t ← next env ps
  let tag := t.1
  let ps := t.2
  match tag / 16 with
  | 0 =>
    if tag = 1 then pure (.node [] .null [], ps)
    else if tag = 4 then pure (.node [] (.bool false) [], ps)
    else if tag = 3 then pure (.node [] (.bool true) [], ps)
    else if tag = 2 then pure (.node [] .undef [], ps)
    else if tag = 6 then do
      let r ← readN env 8 ps
      pure (.node [] (ofDouble (ofLe r.1)) [], r.2)
    else if tag = 5 then do
      let r ← readN env 4 ps
      pure (.node [] (ofDouble (widen (ofLe r.1))) [], r.2)
    else if tag = 15 then do
      let o ← next env ps
      if o.1 / 16 = 5 then do
        let n ← parseInteger env o.1 o.2
        let slots ← allocArr env n.1
        let r ← items n.1 slots n.2
        pure (.node [] (.obj true) r.1, r.2)
      else .err
    else .err
  | 6 => do
    let n ← parseInteger env tag ps
    let slots ← allocArr env n.1
    let r ← items n.1 slots n.2
    pure (.node [] .arr r.1, r.2)
  | 5 => do
    let n ← parseInteger env tag ps
    let slots ← allocArr env n.1
    let r ← items n.1 slots n.2
    pure (.node [] (.obj false) r.1, r.2)
  | 4 => do
    let r ← parseString env tag false ps
    pure (.node [] (.str r.1) [], r.2)
  | 1 => do
    let r ← parseString env tag env.binEnc ps
    pure (.node [] (if r.1 = [] then .str [] else if env.binEnc then .bin r.1 else .str r.1) [], r.2)
  | 2 => do
    let n ← parseInteger env tag ps
    pure (.node [] (.uint false n.1) [], n.2)
  | 3 => do
    let n ← parseInteger env tag ps
    let sh ← negInt n.1
    pure (.node [] sh [], n.2)
  | 7 => do
    let k ← parseString env tag false ps
    let ps ← storeKey k.2 k.1
    let v ← item ps
    pure (v.1.withKey k.1, v.2)
  | _ => do
    let k := histKey ps tag
    let v ← item ps
    pure (v.1.withKey k, v.2)

mutual
/-- `parseItem` (binjson.tcc:362-411) with room for `lim` calls. -/
def parseItemD (env : Env) : Nat → Nat → PS → Res (BV × PS)
  | 0, _, _ => .abort
  | _ + 1, 0, _ => .fuel
  | lim + 1, f + 1, ps => itemBody env (fun ps => parseItemD env lim f ps) (fun n slots ps => parseItemsD env lim f n slots ps) ps
/-- The loop over the items (binjson.tcc:244-246, 255-257) with room for `lim` more calls. -/
def parseItemsD (env : Env) : Nat → Nat → Nat → Nat → PS → Res (List BV × PS)
  | _, 0, _, _, _ => .fuel
  | _, _ + 1, 0, _, ps => .ok ([], ps)
  | lim, f + 1, n + 1, slots, ps => do
    let v ← parseItemD env lim f ps
    if slots = 0 then .ub
    else do
      let r ← parseItemsD env lim f n (slots - 1) v.2
      pure (v.1 :: r.1, r.2)
end

/-- `Value::parseBinary` with room for `lim` calls of `parseItem`. -/
def parseBinaryD (env : Env) (lim fuel : Nat) (s : Bytes) : Res (BV × PS) := parseItemD env lim fuel ⟨s, [], 0⟩

end Imt.BinJson
