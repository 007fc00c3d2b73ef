import Verif.Model.Dest
/-
Model of the conversions `strTo`/`boolTo` (`include/blet/args/argument.h:45-237`) and of the variables they write.
`D` is the type of C++ `double`s (abstract).
-/
namespace BletArgs
variable {D : Type}

/-- What is assumed of floating point numbers: nothing but the existence of these functions.
`strtod` is `::strtod(s, NULL)`; `trunc` the integral part (`none` for NaN and infinities); `isZero d` is `d == 0`;
`ofBool` the conversion of a `bool`. -/
structure Doubles (D : Type) where
  strtod : Str → D
  trunc : D → Option Int
  isZero : D → Bool
  ofBool : Bool → D

/-- The element types with an overload (`argument.h:45-237`): `bool`, the integer types (`char`, `short`, `int`, `long`,
`long long`, signed or not) with their bounds, the floating types, `std::string`, `const char*`, `char[N]` (scalar
destinations only), and any other type (generic template).
Simplification: the narrowing of a `double` to `float` and its widening to `long double` are not modelled. -/
inductive ElemTy where
  | bool
  | int (lo hi : Int)
  | real
  | string
  | cstr
  | array
  | other
  deriving DecidableEq, Repr

/-- What a `const char*` points to: a string literal, the member `argument_` of an argument object, or the buffer of a
temporary `std::string` destroyed at the end of the full expression (a dangling pointer). -/
inductive PtrTo where
  | literal
  | member
  | dead
  deriving DecidableEq, Repr

/-- The value of a variable of an element type; for a pointer, also the text it pointed to when it was stored. -/
inductive Cell (D : Type) where
  | bool (b : Bool)
  | int (n : Int)
  | real (d : D)
  | string (s : Str)
  | ptr (to : PtrTo) (s : Str)
  | array (b : Buf)
  | other

/-- `include/blet/args/argument.h:157-223`, assignment of a `double` to an integer variable: truncation, undefined when
the integral part is not representable. -/
def toInt (F : Doubles D) (lo hi : Int) (d : D) : Res (Cell D) :=
  match F.trunc d with
  | none => .ub "conversion of a double out of range"
  | some n => if lo ≤ n ∧ n ≤ hi then .ok (.int n) else .ub "conversion of a double out of range"

/-- `include/blet/args/argument.h:152-237`, `strTo(str, ret)`; `holder` tells what holds `str`. `old` is the previous value
of `ret` (needed for an array only). -/
def strTo (F : Doubles D) (ty : ElemTy) (holder : PtrTo) (str : Str) (old : Cell D) : Res (Cell D) :=
  match ty with
  | .bool => .ok (.bool (!F.isZero (F.strtod str)))
  | .int lo hi => toInt F lo hi (F.strtod str)
  | .real => .ok (.real (F.strtod str))
  | .string => .ok (.string str)
  | .cstr => .ok (.ptr holder str)
  | .array =>
    match old with
    | .array buf => match strToBuf str buf with | some b => .ok (.array b) | none => .ub "write past the end of an array"
    | _ => .ub "not an array"
  | .other => .throw noConversion

/-- `include/blet/args/argument.h:45-150`, `boolTo(b, ret)`. -/
def boolTo (F : Doubles D) (ty : ElemTy) (b : Bool) (old : Cell D) : Res (Cell D) :=
  match ty with
  | .bool => .ok (.bool b)
  | .int _ _ => .ok (.int (if b then 1 else 0))
  | .real => .ok (.real (F.ofBool b))
  | .string => .ok (.string (if b then "true".toList else "false".toList))
  | .cstr => .ok (.ptr .literal (if b then "true".toList else "false".toList))
  | .array =>
    match old with
    | .array buf => match boolToBuf b buf with | some b => .ok (.array b) | none => .ub "write past the end of an array"
    | _ => .ub "not an array"
  | .other => .throw noConversion

/-- The conversion of a source. -/
def convert (F : Doubles D) (ty : ElemTy) (v : Src) (old : Cell D) : Res (Cell D) :=
  match v with
  | .str s => strTo F ty .member s old
  | .temp s => strTo F ty .dead s old
  | .bool b => boolTo F ty b old

/-- A destination variable: `T`, `std::vector<T>` or `std::vector<std::vector<T> >`. -/
inductive Var (D : Type) where
  | one (c : Cell D)
  | many (l : List (Cell D))
  | nested (l : List (List (Cell D)))

/-- `T dest; strTo(…, dest); vector.push_back(dest)` for each source (`argument.h:757-785,837-858`). The fresh `T` is
uninitialised (`Cell.other`); there are no vectors of arrays. -/
def convertAll (F : Doubles D) (ty : ElemTy) : List Src → Res (List (Cell D))
  | [] => .ok []
  | v :: vs =>
    match convert F ty v .other with
    | .ok c => match convertAll F ty vs with | .ok cs => .ok (c :: cs) | r => r
    | r => r.cast

/-- One write to a variable (`argument.h:706-714,757-785,837-863`). The effect of a custom conversion is that of the
user's function: not modelled, the variable is left alone here. -/
def Var.write (F : Doubles D) (ty : ElemTy) (x : Var D) : DestWrite → Res (Var D)
  | .set _ v =>
    match x with
    | .one c => match convert F ty v c with | .ok c' => .ok (.one c') | r => r.cast
    | _ => .ub "not a scalar"
  | .append _ v =>
    match x with
    | .many l => match convertAll F ty [v] with | .ok cs => .ok (.many (l ++ cs)) | r => r.cast
    | _ => .ub "not a vector"
  | .appendVec _ vs =>
    match x with
    | .nested l => match convertAll F ty vs with | .ok cs => .ok (.nested (l ++ [cs])) | r => r.cast
    | _ => .ub "not a vector of vectors"
  | .callScalar .. | .callVector .. | .callVecVec .. => .ok x

/-- Several writes, in order. -/
def Var.writes (F : Doubles D) (ty : ElemTy) (x : Var D) : List DestWrite → Res (Var D)
  | [] => .ok x
  | w :: ws => match x.write F ty w with | .ok y => y.writes F ty ws | r => r

end BletArgs
