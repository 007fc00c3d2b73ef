import Verif.Model.Argument
/-
Model of the `toDest_` overrides (`include/blet/args/argument.h:688-871`) and of the `char[N]`
conversions.
-/
namespace BletArgs
variable {D : Type}

/-- `include/blet/args/argument.h:45-48,152-155`: the generic `boolTo`/`strTo` templates throw. -/
def noConversion : Exn := ⟨.parse, [], "destination method not found for this type".toList⟩

/-- The boolean/string selection shared by `argument.h:706-714,775-783,853-861`. -/
def Argument.scalarSrc (a : Argument D) : Src :=
  match a.type with
  | .boolean => .bool a.isExist
  | .reverse => .bool (!a.isExist)
  | _ => .str a.argument

/-- The nested loops of `argument.h:739-753` (and `757-772`): all strings of the argument, flattened;
used only when the vector is not empty. -/
def Argument.flatStrings (a : Argument D) : List Str :=
  a.elems.flatMap fun e => if e.subs.isEmpty then [e.argument] else e.subs.map (·.argument)

/-- The nested loops of `argument.h:811-824` (and `833-850`): the strings of the argument, one vector per
element. -/
def Argument.groupedStrings (a : Argument D) : List (List Str) :=
  a.elems.map fun e => if e.subs.isEmpty then [e.argument] else e.subs.map (·.argument)

/-- A call of the callback of a destination (`include/blet/args/argument.h:703,754,830`): the call happens, and what the
callback throws leaves `toDest_`. -/
def Dest.invoke (d : Dest) (w : DestWrite) : List DestWrite × Res Unit :=
  ([w], match d.refuses w with
    | none => .ok ()
    | some e => .throw e)

/-- `toDest_`: `Argument` (`argument.h:649-651`), `ArgumentType` (`:701-716`), `ArgumentVectorType`
(`:736-787`), `ArgumentVectorVectorType` (`:808-867`). Result: the writes in order, and the exception of the callback
(after its call) or of an unsupported element type (always raised by the first conversion, before any write). -/
def Argument.toDest (a : Argument D) : List DestWrite × Res Unit :=
  match a.dest with
  | none => ([], .ok ())
  | some d =>
    match d.kind with
    | .scalar =>
      if d.custom then d.invoke (.callScalar d.slot a.isExist a.argument)
      else if d.supported then ([.set d.slot a.scalarSrc], .ok ())
      else ([], .throw noConversion)
    | .vector =>
      if d.custom then
        d.invoke (.callVector d.slot a.isExist (if a.elems.isEmpty then [a.argument] else a.flatStrings))
      else if d.supported then
        (if a.elems.isEmpty then [.append d.slot a.scalarSrc]
         else a.flatStrings.map fun s => .append d.slot (.temp s), .ok ())
      else ([], .throw noConversion)
    | .vecvec =>
      if d.custom then
        d.invoke (.callVecVec d.slot a.isExist (if a.elems.isEmpty then [[a.argument]] else a.groupedStrings))
      else if d.supported then
        (if a.elems.isEmpty then [.appendVec d.slot [a.scalarSrc]]
         else a.groupedStrings.map fun g => .appendVec d.slot (g.map Src.temp), .ok ())
      else ([], .throw noConversion)

/-! ### `char (&ret)[Size]` destinations -/

/-- A C buffer: `none` is the NUL byte, so its length is the array size. -/
abbrev Buf := List (Option Char)

/-- `memcpy(buf, bytes, bytes.length)` into an array; `none` (UB) when it would write past the end. -/
def memcpy (buf : Buf) (bytes : Buf) : Option Buf :=
  if bytes.length ≤ buf.length then some (bytes ++ buf.drop bytes.length) else none

/-- `buf[i] = '\0'`; `none` (UB) when out of bounds. -/
def setNul (buf : Buf) (i : Nat) : Option Buf :=
  if i < buf.length then some (buf.set i none) else none

/-- `include/blet/args/argument.h:227-237`, `strTo(const std::string&, char (&ret)[Size])`;
`Size` is the length of the buffer. Size 0 is not a C++ array; `Size - 1` is then 0 here. -/
def strToBuf (str : Str) (buf : Buf) : Option Buf :=
  if buf.length > str.length then
    (memcpy buf (str.map some)).bind fun b => setNul b str.length
  else
    (memcpy buf ((str.map some).take (buf.length - 1))).bind fun b => setNul b (buf.length - 1)

/-- `include/blet/args/argument.h:130-150`, `boolTo(const bool&, char (&ret)[Size])`;
`sizeof("true")` counts the terminator. -/
def boolToBuf (b : Bool) (buf : Buf) : Option Buf :=
  let s : Str := if b then "true".toList else "false".toList
  if buf.length ≥ s.length + 1 then
    memcpy buf (s.map some ++ [none])
  else
    (memcpy buf ((s.map some).take (buf.length - 1))).bind fun b => setNul b (buf.length - 1)

end BletArgs
