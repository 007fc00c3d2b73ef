import Verif.Spec.Api
/-
Specification: what the setters change.
-/
namespace BletArgs.Spec
variable {D : Type}

/-- What the setters of `Args` and `Usage` set. -/
structure Settings where
  binaryName : Str
  version : Str
  isAlternative : Bool
  isStrict : Bool
  isHelpException : Bool
  isVersionException : Bool
  usage : Str
  description : Str
  epilog : Str
  widths : Nat × Nat × Nat × Nat
  deriving DecidableEq, Repr

/-- The settings of a parser. -/
def settings (st : State D) : Settings where
  binaryName := st.binaryName
  version := st.version
  isAlternative := st.isAlternative
  isStrict := st.isStrict
  isHelpException := st.isHelpException
  isVersionException := st.isVersionException
  usage := st.usage
  description := st.description
  epilog := st.epilog
  widths := (st.padWidth, st.argsWidth, st.sepWidth, st.helpWidth)

/-- The settings of a new parser. -/
def fresh : Settings := ⟨[], [], false, false, false, false, [], [], [], (2, 20, 2, 56)⟩

/-- How a call changes the settings. `idle` tells that a call of `parseArguments` does nothing at all (no help option, and
both of its names taken by other arguments). -/
def Op.sets (idle : Bool) (op : Op) (x : Settings) : Settings :=
  match op with
  | .setBinaryName s => { x with binaryName := s }
  | .setVersion s => { x with version := s }
  | .setAlternative b => { x with isAlternative := b }
  | .setStrict b => { x with isStrict := b }
  | .setHelpException b => { x with isHelpException := b }
  | .setVersionException b => { x with isVersionException := b }
  | .setUsage s => { x with usage := s }
  | .setDescription s => { x with description := s }
  | .setEpilog s => { x with epilog := s }
  | .setUsageWidth p a s h => { x with widths := (p, a, s, h) }
  | .clear => fresh
  | .parse argv => if x.binaryName = [] ∧ idle = false then { x with binaryName := argv.headD [] } else x
  | _ => x

/-- The calls made on an argument other than `dest()`, and the reference they are made through. -/
def Op.target : Op → Option Nat
  | .flag ref _ | .action ref _ | .nargs ref _ | .defaults ref _ | .required ref _ | .help ref _ | .metavar ref _
  | .valid ref _ _ | .behave ref _ _ | .edit ref _ => some ref
  | _ => none

/-- What such a call does to the argument: `a` before, `a'` after. The value of a field on the right that is taken from `a'`
is not specified here (C08, C14 and C17 do). -/
def Op.alters (op : Op) (a a' : Argument D) : Prop :=
  match op with
  | .help _ h => a' = { a with help := h }
  | .metavar _ m => a' = { a with metavar := m }
  | .behave _ c r => a' = { a with valid := a.valid.map fun v => { v with check := c }, dest := a.dest.map fun d => { d with refuses := r } }
  | .edit _ items => a' = { a with elems := a'.elems } ∧
      a'.elems.map (fun e => (e.argument, e.dflt, e.subs.map fun l => (l.argument, l.dflt))) =
        items.map fun i => (i.text, i.dflt, i.subs.map fun s => (s.1, s.2.1))
  | .valid _ v d => a' = { a with valid := v, validDeletable := d }
  | .required _ b => a' = { a with isRequired := b }
  | .flag _ f => a' = a ∨ (a'.names.Perm (f :: a.names) ∧ a' = { a with names := a'.names })
  | .defaults _ ds => a' = { a with defaults := ds, dflt := a'.dflt, argument := a'.argument, elems := a'.elems }
  | .nargs _ _ => a' = { a with nargs := a'.nargs, type := a'.type, action := a'.action, dflt := a'.dflt,
                                argument := a'.argument, elems := a'.elems }
  | .action _ _ => a' = { a with action := a'.action, nargs := a'.nargs, type := a'.type, dflt := a'.dflt,
                                 argument := a'.argument, elems := a'.elems }
  | _ => False

end BletArgs.Spec
