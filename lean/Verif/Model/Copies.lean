import Verif.Spec.Api
import Verif.Model.Read
/-
Model of the public copy constructor of `Argument` (`include/blet/args/argument.h:342-347`, `src/argument.cpp:123-144`):
objects copied by the user (`blet::args::Argument c = args["-o"];`, `auto c = args.addArgument("-o");`), the calls made
on them and their destruction.
-/
namespace BletArgs
variable {D : Type}

/-- An object copied from an argument: its fields, and `this_`, the address of the list element of the original. -/
structure Copy (D : Type) where
  arg : Argument D
  node : Nat

/-- `src/argument.cpp:123-138`, the copy constructor: everything but `defaults_`; a copy of an `ArgumentType` is an
`Argument`, so it has no destination. -/
def Slot.copied (s : Slot D) : Copy D := ⟨{ s.arg with defaults := [], dest := none }, s.node⟩

/-- A parser and the copies made by the user, in order of creation; `none` is a copy that was destroyed. `freed` are the
validators deleted by copies (`delete valid_` in `~Argument` and in `valid()`). -/
structure World (D : Type) where
  st : State D
  copies : List (Option (Copy D)) := []
  freed : List Nat := []

/-- What a program with copies does: a call on the parser or through a reference, making a copy of the argument designated
by a reference, destroying a copy, and the calls on the `i`-th copy. -/
inductive CopyOp where
  | call (op : Op)
  | copy (ref : Nat)
  | drop (i : Nat)
  | flag (i : Nat) (f : Str)
  | action (i : Nat) (a : Action)
  | nargs (i : Nat) (n : Nat)
  | defaults (i : Nat) (ds : List Str)
  | required (i : Nat) (b : Bool)
  | help (i : Nat) (h : Str)
  | metavar (i : Nat) (m : Str)
  | valid (i : Nat) (v : Option Validator) (deletable : Bool)

namespace World

/-- Put the `i`-th copy back. -/
def set (w : World D) (i : Nat) (c : Copy D) : World D := { w with copies := w.copies.set i (some c) }

/-- A method call on the `i`-th copy; a destroyed copy is undefined behaviour. -/
def withCopy (w : World D) (i : Nat) (f : Copy D → World D × Res Unit) : World D × Res Unit :=
  match w.copies[i]? with
  | some (some c) => f c
  | _ => (w, .ub "destroyed copy")

/-- Some argument of the parser has a validator that a copy deleted. -/
def dangling (w : World D) : Bool :=
  w.st.arguments.any fun s => match s.arg.valid with | some v => w.freed.contains v.id | none => false

/-- `src/argument.cpp:262-263`, `include/blet/args/argument.h:516-517` on a copy whose fields were set to `a`. The address
of the copy is one that no argument has; a parser that gets a pointer to the copy as help or version option is counted
as undefined behaviour (over-approximation: the pointer dangles once the copy is destroyed). -/
def retype (w : World D) (i : Nat) (c : Copy D) (a : Argument D) : World D × Res Unit :=
  match a.typeConstructor w.st.nextObj w.st.helpOption w.st.versionOption with
  | (a1, h, v, .ok ()) =>
    if h != w.st.helpOption || v != w.st.versionOption then (w, .ub "help or version option is a copy")
    else
      let r := a1.defaultsConstructor
      (w.set i { c with arg := r.1 }, r.2)
  | (a1, _, _, r) => (w.set i { c with arg := a1 }, r)

/-- `src/argument.cpp:237-250`, `Argument::flag` on a copy: the flag is added to the names of the copy, and registered in the
parser for the list element of the original. -/
def flag (w : World D) (i : Nat) (f : Str) : World D × Res Unit :=
  w.withCopy i fun c =>
    if c.arg.isPositional then
      (w, .throw ⟨.argument, f, "can't add flag in positionnal argument".toList⟩)
    else
      match validFormatFlag f with
      | some msg => (w, .throw ⟨.argument, f, msg⟩)
      | none =>
        if w.st.argumentExists f then (w, .throw ⟨.argument, f, "invalid flag already exist".toList⟩)
        else
          let r := { w.st with byName := insertName w.st.byName f c.node }.sortArguments
          ({ w.set i { c with arg := { c.arg with names := sortNames (c.arg.names ++ [f]) } } with st := r.1 }, r.2)

/-- `src/argument.cpp:252-265`, `Argument::action` on a copy. -/
def action (w : World D) (i : Nat) (act : Action) : World D × Res Unit :=
  w.withCopy i fun c =>
    let st1 := if c.arg.action == .help then { w.st with helpOption := none } else w.st
    let st2 := if c.arg.action == .version then { st1 with versionOption := none } else st1
    { w with st := st2 }.retype i c { c.arg with action := act }

/-- `include/blet/args/argument.h:514-519`, `Argument::nargs` on a copy. -/
def nargs (w : World D) (i : Nat) (n : Nat) : World D × Res Unit :=
  w.withCopy i fun c => w.retype i c { c.arg with nargs := n }

/-- `include/blet/args/argument.h:529-533`, `Argument::defaults` on a copy. -/
def defaults (w : World D) (i : Nat) (ds : List Str) : World D × Res Unit :=
  w.withCopy i fun c =>
    let r := { c.arg with defaults := ds }.defaultsConstructor
    (w.set i { c with arg := r.1 }, r.2)

/-- `src/argument.cpp:267-271`, `Argument::required` on a copy: the list of the parser is sorted. -/
def required (w : World D) (i : Nat) (b : Bool) : World D × Res Unit :=
  w.withCopy i fun c =>
    let r := w.st.sortArguments
    ({ w.set i { c with arg := { c.arg with isRequired := b } } with st := r.1 }, r.2)

/-- `include/blet/args/argument.h:482-485`, `Argument::help` on a copy. -/
def help (w : World D) (i : Nat) (h : Str) : World D × Res Unit :=
  w.withCopy i fun c => (w.set i { c with arg := { c.arg with help := h } }, .ok ())

/-- `include/blet/args/argument.h:501-504`, `Argument::metavar` on a copy. -/
def metavar (w : World D) (i : Nat) (m : Str) : World D × Res Unit :=
  w.withCopy i fun c => (w.set i { c with arg := { c.arg with metavar := m } }, .ok ())

/-- `include/blet/args/argument.h:542-549`, `Argument::valid` on a copy. -/
def valid (w : World D) (i : Nat) (v : Option Validator) (deletable : Bool) : World D × Res Unit :=
  w.withCopy i fun c =>
    ({ w.set i { c with arg := { c.arg with valid := v, validDeletable := deletable } } with
        freed := w.freed ++ c.arg.ownedValid }, .ok ())

/-- `src/argument.cpp:123-138`: `Argument c(ref)`. -/
def copy (w : World D) (ref : Nat) : World D × Res Unit :=
  match w.st.atObj ref with
  | none => (w, .ub "dangling Argument&")
  | some s => ({ w with copies := w.copies ++ [some s.copied] }, .ok ())

/-- `src/argument.cpp:140-144`, `Argument::~Argument` of a copy. -/
def drop (w : World D) (i : Nat) : World D × Res Unit :=
  w.withCopy i fun c =>
    ({ w with copies := w.copies.set i none, freed := w.freed ++ c.arg.ownedValid }, .ok ())

end World

/-- The calls of the parser that call or delete validators (`src/args.cpp:56-61,146-215,278-316`,
`include/blet/args/argument.h:542-549`). -/
def Op.touchesValids : Op → Bool
  | .parse _ | .remove _ | .clear | .valid .. => true
  | _ => false

/-- One step of a program with copies. A call that may call or delete a validator while the parser has one that was
deleted through a copy is undefined behaviour (over-approximation: it may be that this one is not touched). -/
def World.step (scan : Str → Option D) (w : World D) : CopyOp → World D × Res Unit
  | .call op =>
    if op.touchesValids && w.dangling then (w, .ub "deleted validator")
    else ({ w with st := (BletArgs.step scan w.st op).1 }, (BletArgs.step scan w.st op).2)
  | .copy ref => w.copy ref
  | .drop i => w.drop i
  | .flag i f => w.flag i f
  | .action i a => w.action i a
  | .nargs i n => w.nargs i n
  | .defaults i ds => w.defaults i ds
  | .required i b => w.required i b
  | .help i h => w.help i h
  | .metavar i m => w.metavar i m
  | .valid i v d => w.valid i v d

end BletArgs
