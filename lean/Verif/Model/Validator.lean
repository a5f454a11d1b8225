import Verif.Model.ValidText
import Verif.Model.Equal
import Verif.Model.Utf8
/-!
# The validator (`validator.cpp`, `validator.h`)

Values carry addresses (`Eq.EV`), because the code tests identity (`isCopyOf`, pointer shortcut of `operator==`).
Members of objects and items of arrays are the items of the node; the lookup of a member finds the first item with the key (keys of an object are
unique). Conversions that are not the subject here (`toString`, `getNumber`, `getInt`, `splitAt`,
`StringView::split`, native rules) are parameters. The current path is an argument: `StackSave` (validator.cpp:94-101)
restores it on each way out. Counters of the type `unsigned int` over sizes of arrays are not truncated.
-/
namespace Imt.Valid
open Imt Imt.Eq Imt.VText

/-- Functions of the library and of the user that the validator calls. -/
structure Env where
  /-- Address of the object behind the proxies of an address (`unproxy`, value.h:851-853). -/
  base : Nat → Nat
  /-- `Value::toString`. -/
  toStr : EV → Bytes
  /-- `getString` of a precise number. -/
  precText : EV → Bytes
  /-- `Value::getNumber` as a number. -/
  toNum : EV → Num
  /-- `Value::getUInt`. -/
  uint : EV → Nat
  /-- `Value::getInt`. -/
  int : EV → Int
  /-- `Value::splitAt`. -/
  splitAt : EV → Int → EV × EV
  /-- `StringView::split(separator, limit)`. -/
  explode : Bytes → Bytes → Option Nat → List Bytes
  /-- `onNativeRule` (validator.h). -/
  native : EV → Bytes → Bool

/-- An element of a path. -/
inductive PE where
  | key (k : Bytes)
  | idx (i : Nat)
deriving Repr, DecidableEq

/-- A path from the root. -/
abbrev Path := List PE

/-- The undefined value (one shared object). -/
def undefV : EV := .node 0 [] false .undef []

/-- Mutable members of `Validator`: `rejections`, `lastRejectedRule`, `varList` (the last one first), `emits`; and the
next address for values made during the validation. -/
structure St where
  rej : List (Path × EV) := []
  last : EV := undefV
  vars : List EV := []
  emits : List EV := []
  next : Nat := 1

/-- A call: its outcome, and the members it leaves (also when it throws). -/
def M (α : Type) : Type := St → Res α × St

namespace M
/-- `return`. -/
def pure {α : Type} (a : α) : M α := fun st => (.ok a, st)
/-- Sequencing. -/
def bind {α β : Type} (x : M α) (f : α → M β) : M β := fun st => match x st with
  | (.ok a, st) => f a st
  | (.err, st) => (.err, st)
  | (.ub, st) => (.ub, st)
  | (.abort, st) => (.abort, st)
  | (.fuel, st) => (.fuel, st)
instance : Monad M where
  pure := pure
  bind := bind
/-- A result without an effect. -/
def lift {α : Type} (r : Res α) : M α := fun st => (r, st)
/-- The members. -/
def get : M St := fun st => (.ok st, st)
/-- Assignment to the members. -/
def modify (f : St → St) : M Unit := fun st => (.ok (), f st)
end M

/-- The recursive call of `evalRule`: subject, rule, current path. -/
abbrev Ev := EV → EV → Path → M Bool

/-! ### Access to values -/

/-- `defined()`. -/
def defd (v : EV) : Bool := v.sh != .undef
/-- Items of a container. -/
def items (v : EV) : List EV := match v.sh with
  | .arr | .obj _ => v.kids
  | _ => []
/-- `operator[]` with an index. -/
def at' (v : EV) (i : Nat) : EV := ((items v)[i]?).getD undefV
/-- `operator[]` with a key. -/
def member (v : EV) (k : Bytes) : EV := match v.sh with
  | .obj _ => (v.kids.find? (fun x => x.key == k)).getD undefV
  | _ => undefV
/-- `getString()`. -/
def getStr (env : Env) (v : EV) : Bytes := match v.sh with
  | .str s _ => s
  | .num (.precU _) | .num (.precI _) | .num (.precD _) => env.precText v
  | _ => []
/-- Whether the types are the same. -/
def sameType (a b : EV) : Bool := typeNo a.sh == typeNo b.sh
/-- `type() == string`. -/
def isStr (v : EV) : Bool := match v.sh with | .str _ _ => true | _ => false
/-- `type() == number`. -/
def isNum (v : EV) : Bool := match v.sh with | .num _ => true | _ => false
/-- `type() == boolean`. -/
def isBool (v : EV) : Bool := match v.sh with | .bool _ => true | _ => false
/-- `type() == array`. -/
def isArr (v : EV) : Bool := match v.sh with | .arr => true | _ => false
/-- `type() == object`. -/
def isObj (v : EV) : Bool := match v.sh with | .obj _ => true | _ => false
/-- `isCopyOf` (value.h:851-853). -/
def isCopyOf (env : Env) (a b : EV) : Bool := env.base a.addr == env.base b.addr

/-- A new string value. -/
def newStr (s : Bytes) : M EV := fun st => (.ok (.node st.next [] false (.str s false) []), { st with next := st.next + 1 })
/-- A new number value. -/
def newNum (n : Num) : M EV := fun st => (.ok (.node st.next [] false (.num n) []), { st with next := st.next + 1 })
/-- A new array of strings. -/
def newStrArr (l : List Bytes) : M EV := fun st =>
  (.ok (.node st.next [] false .arr (l.mapIdx fun i s => .node (st.next + 1 + i) [] false (.str s false) [])),
   { st with next := st.next + 1 + l.length })

/-! ### Rejections and variables -/

/-- `addRejection` (validator.cpp:859-873) for a defined rule. -/
def addRejDef (env : Env) (path : Path) (rule : EV) : M Unit := fun st =>
  if opEq rule st.last then (.ok (), st)
  else if (items rule).any (fun v => isCopyOf env v st.last) then (.ok (), { st with last := rule })
  else (.ok (), { st with rej := st.rej ++ [(path, rule)], last := rule })

/-- `addRejection` (validator.cpp:859-873). -/
def addRej (env : Env) (path : Path) (rule : EV) : M Unit :=
  if !defd rule then do
    let u ← newStr (ascii "undefined")
    addRejDef env path u
  else addRejDef env path rule

/-- `rejections.resize(sz)` to a size not above the current one. -/
def truncRej (sz : Nat) : M Unit := M.modify fun st => { st with rej := st.rej.take sz }

/-- `pushVar` (validator.cpp:875-878): the value with the name as its key is a new object. -/
def pushVar (name : Bytes) (v : EV) : M Unit := fun st =>
  (.ok (), { st with vars := .node st.next name v.wrapped v.sh v.kids :: st.vars, next := st.next + 1 })

/-- `popVar` (validator.cpp:880-883). -/
def popVar : M Unit := M.modify fun st => { st with vars := st.vars.tail }

/-- `findVar` (validator.cpp:885-894). -/
def findVar (vars : List EV) (name : Bytes) (this : EV) : EV :=
  if name = ascii "$this" then this else (vars.find? (fun v => v.key == name)).getD undefV

mutual
/-- `getVar` (validator.cpp:896-928). -/
def getVar (env : Env) (vars : List EV) (this : EV) : EV → EV
  | .node a k w sh kids =>
    match sh, kids with
    | .arr, n :: rest =>
      match n.sh with
      | .str s _ =>
        if defd (findVar vars s this) then
          match walkVar env vars this (findVar vars s this) rest with
          | some x => x
          | none => .node a k w sh kids
        else .node a k w sh kids
      | _ => .node a k w sh kids
    | _, _ => .node a k w sh kids
/-- The loop of `getVar` (validator.cpp:905-923); `none` is `return path`. -/
def walkVar (env : Env) (vars : List EV) (this : EV) : EV → List EV → Option EV
  | x, [] => some x
  | x, p :: rest =>
    match p.sh with
    | .str s _ => walkVar env vars this (member x s) rest
    | .num _ => walkVar env vars this (at' x (env.uint p)) rest
    | .arr =>
      match (getVar env vars this p).sh with
      | .str s _ => walkVar env vars this (member x s) rest
      | .num _ => walkVar env vars this (at' x (env.uint (getVar env vars this p))) rest
      | _ => none
    | _ => none
end

mutual
/-- `walkObject` (validator.cpp:963-980). New containers get the address 0: emitted values are not compared. An undefined member is
not stored in an object, and `Array::commit` leaves out undefined items (array.cpp:157-159). -/
def walkObject (env : Env) (vars : List EV) (subject : EV) : EV → EV
  | .node a k w sh kids =>
    match sh with
    | .arr =>
      if !isCopyOf env (getVar env vars subject (.node a k w .arr kids)) (.node a k w .arr kids) then
        getVar env vars subject (.node a k w .arr kids)
      else .node 0 [] false .arr (walkItems env vars subject kids)
    | .obj _ => .node 0 [] false (.obj false) (walkMembers env vars subject kids)
    | _ => .node a k w sh kids
/-- Items of an array. -/
def walkItems (env : Env) (vars : List EV) (subject : EV) : List EV → List EV
  | [] => []
  | x :: t =>
    (match walkObject env vars subject x with
      | .node a k w sh kids => if sh = .undef then [] else [.node a k w sh kids]) ++ walkItems env vars subject t
/-- Members of an object. -/
def walkMembers (env : Env) (vars : List EV) (subject : EV) : List EV → List EV
  | [] => []
  | x :: t =>
    (match walkObject env vars subject x with
      | .node a _ w sh kids => if sh = .undef then [] else [.node a x.key w sh kids]) ++ walkMembers env vars subject t
end

/-! ### Comparisons -/

/-- `checkMaxSize` (validator.cpp:103-110). -/
def checkMaxSize (s : EV) (sz : Nat) : Bool := match s.sh with
  | .arr | .obj _ => decide ((items s).length ≤ sz)
  | .str t _ => decide (t.length ≤ sz)
  | _ => true

/-- `checkMinSize` (validator.cpp:112-119). -/
def checkMinSize (s : EV) (sz : Nat) : Bool := match s.sh with
  | .arr | .obj _ => decide ((items s).length ≥ sz)
  | .str t _ => decide (t.length ≥ sz)
  | _ => true

/-- `flags() & numberInteger` (basicValues.cpp:27, basicValues.h:121, stringValue.cpp:177-238). -/
def isS : Num → Bool
  | .zero | .int _ | .precI _ => true
  | _ => false

/-- Numbers in `isLess` (validator.cpp:124-129). -/
def numLess (a b : Num) : Bool :=
  if isS a && isS b then decide (a.getI < b.getI)
  else if a.isU && b.isU then decide (a.getU < b.getU)
  else dlt a.dbl' b.dbl'

/-- `isLess` (validator.cpp:121-139). -/
def isLess (a b : EV) : Bool := match a.sh, b.sh with
  | .num x, .num y => numLess x y
  | .str x _, .str y _ => ltBytes x y
  | .bool x, .bool y => !x && y
  | _, _ => false

/-! ### Rules -/

/-- `evalRuleAlternatives` (validator.cpp:502-510) over the rules from `offset` on. -/
def alts (ev : Ev) (s : EV) (p : Path) : List EV → M Bool
  | [] => pure false
  | v :: t => do
    let b ← ev s v p
    if b then pure true else alts ev s p t

/-- `evalRuleAlternatives(subject, rule, offset)` (validator.cpp:502-510). -/
def alternatives (ev : Ev) (s rule : EV) (off : Nat) (p : Path) : M Bool := alts ev s p ((items rule).drop off)

/-- `evalRuleSubObj(subject, rule, index, offset)` (validator.cpp:328-342). -/
def subAlts (env : Env) (ev : Ev) (s rule : EV) (index off : Nat) (p : Path) : M Bool := do
  let st ← M.get
  let b ← alternatives ev s rule off (p ++ [.idx index])
  if !b then do
    addRej env (p ++ [.idx index]) rule
    pure false
  else do
    truncRej st.rej.length
    pure true

/-- The first loop of `evalRuleArray` (validator.cpp:491-493); `i` runs from `i` for the given number of turns. -/
def tupleLoop (ev : Ev) (s rule : EV) (off : Nat) (p : Path) : Nat → Nat → M Bool
  | 0, _ => pure true
  | n + 1, i => do
    let b ← ev (at' s i) (at' rule (i + off)) (p ++ [.idx i])
    if !b then pure false else tupleLoop ev s rule off p n (i + 1)

/-- The second loop of `evalRuleArray` (validator.cpp:495-497). -/
def restLoop (env : Env) (ev : Ev) (rule : EV) (off : Nat) (p : Path) : List EV → Nat → M Bool
  | [], _ => pure true
  | x :: t, i => do
    let b ← subAlts env ev x rule i off p
    if !b then pure false else restLoop env ev rule off p t (i + 1)

/-- `evalRuleArray` (validator.cpp:488-500). -/
def evalRuleArray (env : Env) (ev : Ev) (s rule : EV) (tupleCnt off : Nat) (p : Path) : M Bool :=
  if !isArr s then pure false
  else do
    let b ← tupleLoop ev s rule off p tupleCnt 0
    if !b then pure false
    else restLoop env ev rule ((tupleCnt + off) % 4294967296) p ((items s).drop tupleCnt) tupleCnt

/-- One comparison of `opRangeDef` (validator.cpp:458-473): `none` for other names. -/
def rangeTest (name : Bytes) : Option (EV → EV → Bool) :=
  if name = ascii "<" then some fun s p => sameType p s && isLess s p
  else if name = ascii ">=" then some fun s p => sameType p s && !isLess s p
  else if name = ascii ">" then some fun s p => sameType p s && isLess p s
  else if name = ascii "<=" then some fun s p => sameType p s && !isLess p s
  else none

/-- What one item of `opRangeDef` is (validator.cpp:454-481). -/
inductive RangeItem where
  | skip
  | test (f : EV → EV → Bool)
  | rule

/-- Kind of an item of `opRangeDef`; `#` starts a comment. -/
def rangeItem (v : EV) : RangeItem := match v.sh with
  | .str name _ =>
    if name.take 1 = [35] then .skip
    else match rangeTest name with
      | some f => .test f
      | none => .rule
  | _ => .rule

/-- The loop of `opRangeDef` (validator.cpp:452-483); an operand behind the end of the rule is undefined. -/
def rangeLoop (env : Env) (ev : Ev) (s : EV) (p : Path) : List EV → M Bool
  | [] => pure true
  | v :: rest =>
    match rangeItem v with
    | .skip => rangeLoop env ev s p rest
    | .test f =>
      match rest with
      | [] => do
        let st ← M.get
        pure (f s (getVar env st.vars s undefV))
      | o :: rest => do
        let st ← M.get
        if f s (getVar env st.vars s o) then rangeLoop env ev s p rest else pure false
    | .rule => do
      let b ← ev s v p
      if !b then pure false else rangeLoop env ev s p rest

/-- `parseKey` (validator.cpp:683-696): the key and `isProp`. -/
def parseKey (k : Bytes) : Bytes × Bool :=
  if k = [37] then ([], true)
  else if k.all (· == 37) then (k.drop 1, false)
  else (k, false)

/-- A failed member: `addRejection` and `return false`. -/
def memberEval (env : Env) (ev : Ev) (s t : EV) (k : Bytes) (p : Path) (cont : M Bool) : M Bool := do
  let m ← ev s t (p ++ [.key k])
  if !m then do
    addRej env (p ++ [.key k]) t
    pure false
  else cont

/-- The rest of the subject (validator.cpp:750-759). -/
def objRestS (env : Env) (ev : Ev) (wild : EV) (p : Path) : List EV → M Bool
  | [] => pure true
  | s :: ss => memberEval env ev s wild s.key p (objRestS env ev wild p ss)

/-- The rest of the template (validator.cpp:760-769). -/
def objRestT (env : Env) (ev : Ev) (p : Path) : List EV → M Bool
  | [] => pure true
  | t :: ts => memberEval env ev undefV t t.key p (objRestT env ev p ts)

/-- The loops of `evalRuleObject` (validator.cpp:720-769). The number bounds the turns. -/
def objLoop (env : Env) (ev : Ev) (wild : EV) (p : Path) : Nat → List EV → List EV → M Bool
  | 0, _, _ => M.lift .fuel
  | n + 1, s :: ss, t :: ts =>
    let tk := parseKey t.key
    if ltBytes s.key tk.1 then
      (if tk.2 then objLoop env ev wild p n ss (t :: ts)
       else memberEval env ev s wild s.key p (objLoop env ev wild p n ss (t :: ts)))
    else if ltBytes tk.1 s.key then
      (if tk.2 then objLoop env ev wild p n (s :: ss) ts
       else memberEval env ev undefV t tk.1 p (objLoop env ev wild p n (s :: ss) ts))
    else
      (if tk.2 then objLoop env ev wild p n ss ts
       else memberEval env ev s t s.key p (objLoop env ev wild p n ss ts))
  | _ + 1, ss, [] => objRestS env ev wild p ss
  | _ + 1, [], ts => objRestT env ev p ts

/-- `evalRuleObject` (validator.cpp:698-773). -/
def evalRuleObject (env : Env) (ev : Ev) (s tpl : EV) (p : Path) : M Bool :=
  if !isObj s then pure false
  else objLoop env ev (member tpl [37]) p ((items s).length + (items tpl).length + 1) (items s) (items tpl)

/-- `checkClass` (validator.cpp:774-784). -/
def checkClass (env : Env) (ev : Ev) (df : EV) (s : EV) (name : Bytes) (p : Path) : M Bool :=
  if !defd (member df name) then M.lift .err
  else if getStr env (member df name) = ascii "native" then pure (env.native s name)
  else ev s (member df name) p

/-- `opIsEmpty` (validator.cpp:559-566). -/
def opIsEmpty (s : EV) : Bool := match s.sh with
  | .arr | .obj _ => (items s).isEmpty
  | .str t _ => t.isEmpty
  | _ => false

/-- `opIsNonEmpty` (validator.cpp:567-574). -/
def opIsNonEmpty (s : EV) : Bool := match s.sh with
  | .arr | .obj _ => !(items s).isEmpty
  | .str t _ => !t.isEmpty
  | _ => false

/-- `opIsInteger` (validator.cpp:241-243). -/
def opIsInteger (s : EV) : Bool := match s.sh with
  | .num n => n.isI
  | _ => false

/-- `opIsUnsigned` (validator.cpp:245-247). -/
def opIsUnsigned (s : EV) : Bool := match s.sh with
  | .num n => deq n.dbl' (.fin 0) || dlt (.fin 0) n.dbl'
  | _ => false

/-- The named rules of `evalRuleSimple` (validator.cpp:592-669); `none` for other names. -/
def namedRule (env : Env) (name : Bytes) (s : EV) : Option Bool :=
  if name = ascii "string" then some (isStr s)
  else if name = ascii "number" then some (isNum s)
  else if name = ascii "boolean" then some (isBool s)
  else if name = ascii "any" then some (defd s)
  else if name = ascii "null" then some (decide (s.sh = .null))
  else if name = ascii "optional" ∨ name = ascii "undefined" then some (!defd s)
  else if name = ascii "hex" then some (opHex (env.toStr s))
  else if name = ascii "base64" then some (opBase64 (env.toStr s))
  else if name = ascii "base64url" then some (opBase64url (env.toStr s))
  else if name = ascii "uppercase" then some (opUppercase (env.toStr s))
  else if name = ascii "lowercase" then some (opLowercase (env.toStr s))
  else if name = ascii "alpha" then some (opAlpha (env.toStr s))
  else if name = ascii "alnum" then some (opAlnum (env.toStr s))
  else if name = ascii "datetime" ∨ name = ascii "datetimez" then some (checkDateTimeGen fmtDateTime (env.toStr s))
  else if name = ascii "date" then some (checkDateTimeGen fmtDate (env.toStr s))
  else if name = ascii "time" then some (checkDateTimeGen fmtTime (env.toStr s))
  else if name = ascii "timez" then some (checkDateTimeGen fmtTimeZ (env.toStr s))
  else if name = ascii "digits" then some (opDigits (env.toStr s))
  else if name = ascii "integer" then some (opIsInteger s)
  else if name = ascii "unsigned" then some (opIsUnsigned s)
  else if name = ascii "identifier" then some (opIsIdentifier (env.toStr s))
  else if name = ascii "empty" then some (opIsEmpty s)
  else if name = ascii "nonempty" then some (opIsNonEmpty s)
  else if name = ascii "object" then some (isObj s)
  else if name = ascii "array" then some (isArr s)
  else none

/-- `evalRuleSimple` (validator.cpp:576-672). -/
def evalRuleSimple (env : Env) (ev : Ev) (df : EV) (s : EV) (name : Bytes) (p : Path) : M Bool :=
  match name with
  | [] => pure false
  | c :: t =>
    if c = 39 then pure (decide (getStr env s = t))
    else if c = 35 then pure false
    else if c = 91 ∧ name.getLast? = some 93 then
      (if isStr s then M.lift (opTestCharset (Utf8.wideOfString (getStr env s)) (Utf8.wideOfString name)) else pure false)
    else match namedRule env name s with
      | some b => pure b
      | none => checkClass env ev df s name p

/-- Conversion to `int`. -/
def toInt32 (n : Nat) : Int := if n % 4294967296 < 2147483648 then ((n % 4294967296 : Nat) : Int) else ((n % 4294967296 : Nat) : Int) - 4294967296

/-- `opPrefix` (validator.cpp:785-802); `x` is the value of the first argument. -/
def opPrefix (env : Env) (ev : Ev) (s args x : EV) (p : Path) : M Bool :=
  if isArr x then
    (if !opEq (env.splitAt s (toInt32 (items x).length)).1 x then pure false
     else if defd (at' args 2) then alternatives ev (env.splitAt s (toInt32 (items x).length)).2 args 2 p
     else pure true)
  else
    (if (getStr env s).take (getStr env x).length ≠ getStr env x then pure false
     else if defd (at' args 2) then do
       let v ← newStr ((getStr env s).drop (getStr env x).length)
       alternatives ev v args 2 p
     else pure true)

/-- `opSuffix` (validator.cpp:804-823). -/
def opSuffix (env : Env) (ev : Ev) (s args x : EV) (p : Path) : M Bool :=
  if isArr x then
    (if !opEq (env.splitAt s (-toInt32 (items x).length)).2 x then pure false
     else if defd (at' args 2) then alternatives ev (env.splitAt s (-toInt32 (items x).length)).1 args 2 p
     else pure true)
  else
    (if (getStr env s).length < (getStr env x).length then pure false
     else if (getStr env s).drop ((getStr env s).length - (getStr env x).length) ≠ getStr env x then pure false
     else if (items args).length > 2 then do
       let v ← newStr ((getStr env s).take ((getStr env s).length - (getStr env x).length))
       alternatives ev v args 2 p
     else pure true)

/-- `opSplit` (validator.cpp:826-829). -/
def opSplit (env : Env) (ev : Ev) (s : EV) (n : Nat) (left right : EV) (p : Path) : M Bool := do
  let b ← ev (env.splitAt s (toInt32 n)).1 left p
  if b then ev (env.splitAt s (toInt32 n)).2 right p else pure false

/-- `opExplode` (validator.cpp:830-854). -/
def opExplode (env : Env) (ev : Ev) (s : EV) (sep : Bytes) (rule limit : EV) (p : Path) : M Bool := do
  let v ← newStrArr (env.explode (getStr env s) sep
    (if defd limit ∧ env.uint limit % 4294967296 ≠ 0 then some (env.uint limit % 4294967296) else none))
  ev v rule p

/-- `opSetVar` (validator.cpp:930-940). -/
def opSetVar (env : Env) (ev : Ev) (s args : EV) (p : Path) : M Bool :=
  if (getStr env (at' args 1)).take 1 = [36] then do
    pushVar (getStr env (at' args 1)) s
    let r ← alternatives ev s args 2 p
    popVar
    pure r
  else pure false

/-- `opUseVar` (validator.cpp:942-947). -/
def opUseVar (env : Env) (ev : Ev) (s args : EV) (p : Path) : M Bool := do
  let st ← M.get
  let v := if isArr (at' args 1) then getVar env st.vars s (at' args 1) else findVar st.vars (getStr env (at' args 1)) s
  if defd v then alternatives ev v args 2 p else pure false

/-- `opEmit` (validator.cpp:982-988). -/
def opEmit (env : Env) (ev : Ev) (s args : EV) (p : Path) : M Bool := do
  let r ← ev s (at' args 2) p
  if r then do
    M.modify fun st => { st with emits := st.emits ++ [walkObject env st.vars s (at' args 1)] }
    pure true
  else pure false

/-- A rule that starts with a name (validator.cpp:384-442). -/
def evalToken (env : Env) (ev : Ev) (s rule : EV) (token : Bytes) (p : Path) : M Bool := do
  let st ← M.get
  if token = ascii "minsize" then pure (checkMinSize s (env.uint (getVar env st.vars s (at' rule 1))))
  else if token = ascii "maxsize" then pure (checkMaxSize s (env.uint (getVar env st.vars s (at' rule 1))))
  else if token = ascii "key" then do
    let v ← newStr s.key
    alternatives ev v rule 1 p
  else if token = ascii "tostring" then do
    let v ← newStr (env.toStr s)
    alternatives ev v rule 1 p
  else if token = ascii "tonumber" then do
    let v ← newNum (env.toNum s)
    alternatives ev v rule 1 p
  else if token = ascii "prefix" then opPrefix env ev s rule (getVar env st.vars s (at' rule 1)) p
  else if token = ascii "suffix" then opSuffix env ev s rule (getVar env st.vars s (at' rule 1)) p
  else if token = ascii "split" then
    opSplit env ev s (env.uint (getVar env st.vars s (at' rule 1))) (at' rule 2) (at' rule 3) p
  else if token = ascii "explode" then
    opExplode env ev s (getStr env (getVar env st.vars s (at' rule 1))) (at' rule 2) (at' rule 3) p
  else if token = ascii ">" ∨ token = ascii ">=" ∨ token = ascii "<" ∨ token = ascii "<=" then
    rangeLoop env ev s p (items rule)
  else if token = ascii "all" ∨ token = ascii "^" then rangeLoop env ev s p ((items rule).drop 1)
  else if token = ascii "datetime" then
    pure (checkDateTimeGen (getStr env (getVar env st.vars s (at' rule 1))) (env.toStr s))
  else if token = ascii "not" ∨ token = ascii "!" then do
    let b ← alternatives ev s rule 1 p
    pure (!b)
  else if token = ascii "setvar" then opSetVar env ev s rule p
  else if token = ascii "usevar" then opUseVar env ev s rule p
  else if token = ascii "emit" then opEmit env ev s rule p
  else if defd (findVar st.vars token s) then pure (opEq s (getVar env st.vars s rule))
  else alternatives ev s rule 0 p

/-- `evalRuleWithParams` (validator.cpp:367-447). -/
def evalRuleWithParams (env : Env) (ev : Ev) (s rule : EV) (p : Path) : M Bool :=
  if (items rule).isEmpty then pure (isArr s && (items s).isEmpty)
  else match (at' rule 0).sh with
    | .arr =>
      if (items (at' rule 0)).isEmpty then evalRuleArray env ev s rule 0 1 p
      else if (items (at' rule 0)).length = 1 ∧ isNum (at' (at' rule 0) 0) = true then
        evalRuleArray env ev s rule (env.int (at' (at' rule 0) 0) % 4294967296).toNat 1 p
      else alternatives ev s rule 0 p
    | .str token _ => evalToken env ev s rule token p
    | _ => alternatives ev s rule 0 p

/-- The rules with a body in `evalRule` (validator.cpp:349-356). -/
def evalBody (env : Env) (ev : Ev) (df s rule : EV) (p : Path) : M Bool :=
  match rule.sh with
  | .obj _ => evalRuleObject env ev s rule p
  | .arr => evalRuleWithParams env ev s rule p
  | .str name _ => evalRuleSimple env ev df s name p
  | _ => pure false

/-- The rules of the `default` branch (validator.cpp:354-355): null, booleans and numbers. -/
def isLit (rule : EV) : Bool := match rule.sh with
  | .null | .bool _ | .num _ => true
  | _ => false

/-- The end of `evalRule` (validator.cpp:358-363); `sz` is the number of rejections at its start. -/
def finish (env : Env) (rule : EV) (p : Path) (sz : Nat) (res : Bool) : M Bool :=
  if res = false then do
    addRej env p rule
    pure false
  else do
    truncRej sz
    pure true

/-- `evalRule` (validator.cpp:345-365) with the recursive calls as a parameter. -/
def step (env : Env) (ev : Ev) (df : EV) (s rule : EV) (p : Path) : M Bool :=
  if isLit rule then pure (opEq s rule)
  else do
    let st ← M.get
    let res ← evalBody env ev df s rule p
    finish env rule p st.rej.length res

/-- `evalRule` (validator.cpp:345-365). The number bounds the depth of the recursion; rules may refer to themselves. -/
def evalRule (env : Env) (df : EV) : Nat → Ev
  | 0 => fun _ _ _ => M.lift .fuel
  | n + 1 => fun s r p => step env (evalRule env df n) df s r p

/-- `validate` (validator.cpp:72-84). -/
def validate (env : Env) (df : EV) (n : Nat) (s : EV) (name : Bytes) (path : Path) : M Bool :=
  if defd (member df (ascii "_version")) ∧ deq (env.toNum (member df (ascii "_version"))).dbl' (.fin one) = false then do
    addRej env [.key (ascii "_version")] (member df (ascii "_version"))
    pure false
  else do
    M.modify fun st => { st with rej := [], emits := [] }
    evalRule env df n s (member df name) path

/-- `setVariables` (validator.cpp:949-953). -/
def setVariables (l : EV) : M Unit := M.modify fun st => { st with vars := (items l).reverse }

end Imt.Valid
