import Verif.Model.Argument
/-
Model of the accessors through which a program reads an argument element by element
(`include/blet/args/argument.h:241-327,441-454`, `src/argument.cpp:89-98`).
-/
namespace BletArgs
variable {D : Type}

/-- `std::vector::size()`, inherited by `Argument` (`include/blet/args/argument.h:241,334`). -/
def Argument.size (a : Argument D) : Nat := a.elems.length

/-- `include/blet/args/argument.h:452-454`, `Argument::operator[](unsigned long)`, which is `at(index)`; `none` when
it throws `std::out_of_range`. -/
def Argument.index (a : Argument D) (i : Nat) : Option (Elem D) := a.elems[i]?

/-- `std::vector::size()`, inherited by `ArgumentElement` (`include/blet/args/argument.h:241`). -/
def Elem.size (e : Elem D) : Nat := e.subs.length

/-- `arg[i][j]`: `ArgumentElement` does not redefine `operator[]` (`include/blet/args/argument.h:241-327`), so this is
the unchecked one of `std::vector`. -/
def Elem.index (e : Elem D) (j : Nat) : Res (Leaf D) :=
  match e.subs[j]? with
  | some l => .ok l
  | none => .ub "std::vector::operator[] out of range"

/-- `include/blet/args/argument.h:258-260`, `ArgumentElement::getString` of an element. -/
def Elem.getString (e : Elem D) : Str := e.argument

/-- `include/blet/args/argument.h:258-260`, `ArgumentElement::getString` of a value of a group. -/
def Leaf.getString (l : Leaf D) : Str := l.argument

/-- `Exception("is not a number")`, `include/blet/args/argument.h:291`. -/
def notANumber : Exn := ⟨.basic, [], "is not a number".toList⟩

/-- `Exception("convertion to vector of string not authorized")`, `src/argument.cpp:97,211`. -/
def notAVector : Exn := ⟨.basic, [], "convertion to vector of string not authorized".toList⟩

/-- `Exception("convertion to vector of vector of string not authorized")`, `src/argument.cpp:231`. -/
def notAVecVec : Exn := ⟨.basic, [], "convertion to vector of vector of string not authorized".toList⟩

/-- How a conversion that may be refused ends. -/
def orThrow {α : Type} (e : Exn) : Option α → Res α
  | some a => .ok a
  | none => .throw e

/-- `include/blet/args/argument.h:287-292,441-444`: `Argument::getNumber` and, up to the conversion of the `double`,
the conversion operator to a numeric type. -/
def Argument.readNumber (a : Argument D) : Res D := orThrow notANumber a.getNumber
/-- `include/blet/args/argument.h:287-292`, `getNumber` of an element. -/
def Elem.readNumber (e : Elem D) : Res D := orThrow notANumber e.num
/-- `include/blet/args/argument.h:287-292`, `getNumber` of a value of a group. -/
def Leaf.readNumber (l : Leaf D) : Res D := orThrow notANumber l.num

/-- `src/argument.cpp:89-98`, `ArgumentElement::operator std::vector<std::string>`. -/
def Elem.readVector (e : Elem D) : Res (List Str) := orThrow notAVector e.toVector
/-- `src/argument.cpp:184-215`, `Argument::operator std::vector<std::string>`. -/
def Argument.readVector (a : Argument D) : Res (List Str) := orThrow notAVector a.toVector
/-- `src/argument.cpp:217-235`, `Argument::operator std::vector<std::vector<std::string> >`. -/
def Argument.readVecVec (a : Argument D) : Res (List (List Str)) := orThrow notAVecVec a.toVecVec

/-- `include/blet/args/argument.h:612-615,310-313`, `operator<<`: the text printed. -/
def Argument.print (a : Argument D) : Str := a.getString

end BletArgs
