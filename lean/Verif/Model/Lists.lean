import Verif.Spec.Api
/-
Model of `include/blet/args/vector.h` and of the functions `Args::vector` of `include/blet/args.h`: how a program builds
the lists of strings it gives to the library.
-/
namespace BletArgs
variable {D : Type}

/-- What a single string is given as: `const char (&)[S]` (all the characters of the array), `const char*` (`none` is the
null pointer) or `const std::string&`. -/
inductive Text where
  | array (cs : List Char)
  | pointer (p : Option Str)
  | string (s : Str)

/-- The `std::string` made of it by `push_back(v)` (`include/blet/args/vector.h:76,81,86,98,103,108`): an array is read up
to its NUL. Simplification: `std::string((const char*)NULL)`, which throws `std::logic_error` with some libraries, is
undefined behaviour. -/
def Text.read : Text → Res Str
  | .array cs => if '\x00' ∈ cs then .ok (cs.takeWhile (· != '\x00')) else .ub "unterminated array"
  | .pointer none => .ub "null pointer"
  | .pointer (some s) => .ok s
  | .string s => .ok s

/-- `Res` of a call made with the result of another. -/
def Res.andThen {α β : Type} (r : Res α) (f : α → Res β) : Res β :=
  match r with
  | .ok a => f a
  | r => r.cast

/-- The loops `for i < S: push_back(v[i])` (`include/blet/args/vector.h:46-48,55-57,64-66`). -/
def pushAll (v : List Str) : List Text → Res (List Str)
  | [] => .ok v
  | t :: ts => t.read.andThen fun s => pushAll (v ++ [s]) ts

/-- The assignments `ret[i] = s_i`, from index `i` on (`include/blet/args.h:75-510`). -/
def assignAll (v : List Str) (i : Nat) : List Text → Res (List Str)
  | [] => .ok v
  | t :: ts => t.read.andThen fun s => assignAll (v.set i s) (i + 1) ts

/-- What a `Vector` is made of: nothing, a number, an array (of pointers or of strings), one string, an initializer list, or
the arguments of `Args::vector` (at most twenty). -/
inductive Source where
  | empty
  | size (n : Int)
  | arrayOf (ts : List Text)
  | one (t : Text)
  | list (l : List Str)
  | vector (ps : List (Option Str))

/-- `include/blet/args/vector.h:37-93` (the constructors) and `include/blet/args.h:66-510` (`Args::vector`). A negative
size, converted to `std::size_t`, makes `std::vector` throw `std::length_error`; memory is not exhausted otherwise. -/
def Source.build : Source → Res (List Str)
  | .empty => .ok []
  | .size n => if n < 0 then .throw ⟨.foreign, [], "length_error".toList⟩ else .ok (List.replicate n.toNat [])
  | .arrayOf ts => pushAll [] ts
  | .one t => t.read.andThen fun s => .ok [s]
  | .list l => .ok l
  | .vector ps => assignAll (List.replicate ps.length []) 0 (ps.map .pointer)

/-- Expressions of type `Vector`: a variable of the program, a new object, or a sum. -/
inductive VExpr where
  | var (x : Nat)
  | new (s : Source)
  | plus (e : VExpr) (t : Text)

/-- The `Vector` variables of the program. -/
abbrev Env := Nat → List Str

/-- The object an expression designates: a variable, or a temporary with its contents. -/
inductive Loc where
  | var (x : Nat)
  | temp (v : List Str)

/-- `env` with `v` in `x`. -/
def Env.set (env : Env) (x : Nat) (v : List Str) : Env := fun y => if y = x then v else env y

/-- `std::vector<std::string>::push_back(s)` on an object. -/
def Loc.push (env : Env) (s : Str) : Loc → Env × Loc
  | .var x => (env.set x (env x ++ [s]), .var x)
  | .temp v => (env, .temp (v ++ [s]))

/-- Evaluation. `include/blet/args/vector.h:96-110`: `operator+` adds to the object on its left and returns this object. -/
def VExpr.eval (env : Env) : VExpr → Env × Res Loc
  | .var x => (env, .ok (.var x))
  | .new s => (env, s.build.andThen fun v => .ok (.temp v))
  | .plus e t =>
    match e.eval env with
    | (env1, .ok l) =>
      match t.read with
      | .ok s => ((l.push env1 s).1, .ok (l.push env1 s).2)
      | r => (env1, r.cast)
    | (env1, r) => (env1, r)

/-- The strings of an object. -/
def Loc.value (env : Env) : Loc → List Str
  | .var x => env x
  | .temp v => v

/-- What a program does with an expression: nothing, store it in a variable, or give it to a call of the library
(`addArgument`, `removeArguments`, `defaults`, the constructor of a `ValidChoise`, …). -/
inductive VCall where
  | discard (e : VExpr)
  | store (x : Nat) (e : VExpr)
  | call (f : List Str → Op) (e : VExpr)

/-- The expression of a step of the program. -/
def VCall.expr : VCall → VExpr
  | .discard e | .store _ e | .call _ e => e

/-- One step of such a program: the variables and the parser after it, and how it ends. -/
def runVCall (scan : Str → Option D) (env : Env) (st : State D) (c : VCall) : Env × State D × Res Unit :=
  match c.expr.eval env with
  | (env1, .ok l) =>
    match c with
    | .discard _ => (env1, st, .ok ())
    | .store x _ => (env1.set x (l.value env1), st, .ok ())
    | .call f _ => (env1, step scan st (f (l.value env1)))
  | (env1, r) => (env1, st, r.cast)

end BletArgs
