import Verif.Model.Parse
/-
The public API as a transition system, and the histories properties quantify over.
-/
namespace BletArgs
variable {D : Type}

/-- The public calls of `Args` (`include/blet/args/args.h`, `usage.h`) and of `Argument`
(`include/blet/args/argument.h`), `edit`, any change of the elements of an argument through
the `std::vector` it inherits from, and `behave`, a change in the objects of the user. `ref` is the address designated by an `Argument&` held by the user. -/
inductive Op where
  | add (names : List Str)
  | remove (names : List Str)
  | clear
  | flag (ref : Nat) (f : Str)
  | action (ref : Nat) (a : Action)
  | nargs (ref : Nat) (n : Nat)
  | defaults (ref : Nat) (ds : List Str)
  | required (ref : Nat) (b : Bool)
  | help (ref : Nat) (h : Str)
  | metavar (ref : Nat) (m : Str)
  | valid (ref : Nat) (v : Option Validator) (deletable : Bool)
  | dest (ref : Nat) (d : Dest)
  | behave (ref : Nat) (check : List Str → VRes) (refuses : DestWrite → Option Exn)
  | edit (ref : Nat) (items : List NewElem)
  | setBinaryName (s : Str)
  | setVersion (s : Str)
  | setAlternative (b : Bool)
  | setStrict (b : Bool)
  | setHelpException (b : Bool)
  | setVersionException (b : Bool)
  | setUsage (s : Str)
  | setDescription (s : Str)
  | setEpilog (s : Str)
  | setUsageWidth (pad args sep help : Nat)
  | parse (argv : List Str)

/-- The reference a call goes through. -/
def Op.ref : Op → Option Nat
  | .flag r _ | .action r _ | .nargs r _ | .defaults r _ | .required r _ | .help r _ | .metavar r _ | .behave r _ _ | .edit r _
  | .valid r _ _ | .dest r _ => some r
  | _ => none

/-- Forget the value of a returned call. -/
def Res.void {α : Type} : Res α → Res Unit
  | .ok _ => .ok ()
  | r => r.cast

/-- One call: the state it leaves and how it ends. The plain setters are
`include/blet/args/args.h:70-72,88-91,108-111,128-131,148-151,167-169` and
`include/blet/args/usage.h:56-58,72-74,90-92,116-121`. -/
def step (scan : Str → Option D) (st : State D) : Op → State D × Res Unit
  | .add names => ((st.addArgument names).1, (st.addArgument names).2.void)
  | .remove names => st.removeArguments names
  | .clear => (st.clear, .ok ())
  | .flag ref f => st.flag ref f
  | .action ref a => st.action ref a
  | .nargs ref n => st.nargs ref n
  | .defaults ref ds => st.setDefaults ref ds
  | .required ref b => st.required ref b
  | .help ref h => st.setHelp ref h
  | .metavar ref m => st.setMetavar ref m
  | .valid ref v d => st.setValid ref v d
  | .dest ref d => ((st.setDest ref d).1, (st.setDest ref d).2.void)
  | .behave ref c r => st.behave ref c r
  | .edit ref items => st.edit scan ref items
  | .setBinaryName s => ({ st with binaryName := s }, .ok ())
  | .setVersion s => ({ st with version := s }, .ok ())
  | .setAlternative b => ({ st with isAlternative := b }, .ok ())
  | .setStrict b => ({ st with isStrict := b }, .ok ())
  | .setHelpException b => ({ st with isHelpException := b }, .ok ())
  | .setVersionException b => ({ st with isVersionException := b }, .ok ())
  | .setUsage s => ({ st with usage := s }, .ok ())
  | .setDescription s => ({ st with description := s }, .ok ())
  | .setEpilog s => ({ st with epilog := s }, .ok ())
  | .setUsageWidth p a s h => ({ st with padWidth := p, argsWidth := a, sepWidth := s, helpWidth := h }, .ok ())
  | .parse argv => st.parseArguments scan argv

/-- The program goes on after a call that returned or threw. -/
def Res.goesOn {α : Type} : Res α → Bool
  | .ok _ | .throw _ => true
  | _ => false

/-- Every state reachable from a fresh object by any sequence of calls; a call may have thrown (and the
exception been caught), but not run into undefined behaviour, exited or looped forever. -/
inductive Reachable (scan : Str → Option D) : State D → Prop
  | init : Reachable scan State.init
  | step {st : State D} (op : Op) : Reachable scan st → (step scan st op).2.goesOn = true →
      Reachable scan (step scan st op).1

/-- The calls of a history, for properties that constrain them: `ReachableBy scan P st` means that `st` is
reached by calls that each satisfied `P (state before) call (how it ended)`. -/
inductive ReachableBy (scan : Str → Option D) (P : State D → Op → Res Unit → Prop) : State D → Prop
  | init : ReachableBy scan P State.init
  | step {st : State D} (op : Op) : ReachableBy scan P st → (BletArgs.step scan st op).2.goesOn = true →
      P st op (BletArgs.step scan st op).2 → ReachableBy scan P (BletArgs.step scan st op).1

theorem ReachableBy.reachable {scan : Str → Option D} {P : State D → Op → Res Unit → Prop} {st : State D}
    (h : ReachableBy scan P st) : Reachable scan st := by
  induction h with
  | init => exact .init
  | step op _ hg _ ih => exact .step op ih hg

end BletArgs
