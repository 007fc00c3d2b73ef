import Verif.Spec.Settings
import Verif.Spec.Texts
/-
Specification: programs that declare arguments and set the settings of the parser, in any order.
-/
namespace BletArgs.Spec
variable {D : Type}

/-- The setters of `Args` and `Usage`. -/
def Op.isSetting : Op → Bool
  | .setBinaryName _ => true
  | .setVersion _ => true
  | .setAlternative _ => true
  | .setStrict _ => true
  | .setHelpException _ => true
  | .setVersionException _ => true
  | .setUsage _ => true
  | .setDescription _ => true
  | .setEpilog _ => true
  | .setUsageWidth _ _ _ _ => true
  | _ => false

/-- The calls that make up the declaration of a parser: everything but `parseArguments` and `clear`. -/
def Op.configures : Op → Bool
  | .parse _ => false
  | .clear => false
  | _ => true

/-- The value of each setting after the setters of a program: the last one given. -/
def lastSettings (ops : List Op) (x : Settings) : Settings :=
  ops.foldl (fun x op => match op with
    | .setBinaryName s => { x with binaryName := s }
    | .setVersion s => { x with version := s }
    | .setAlternative b => { x with isAlternative := b }
    | .setStrict b => { x with isStrict := b }
    | .setHelpException b => { x with isHelpException := b }
    | .setVersionException b => { x with isVersionException := b }
    | .setUsage s => { x with usage := s }
    | .setDescription s => { x with description := s }
    | .setEpilog s => { x with epilog := s }
    | .setUsageWidth p a s h => { x with widths := (p, a, s, h) }
    | _ => x) x

end BletArgs.Spec
