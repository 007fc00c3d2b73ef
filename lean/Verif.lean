import Verif.Model.Base
import Verif.Model.Utils
import Verif.Model.Argument
import Verif.Model.Dest
import Verif.Model.State
import Verif.Model.Usage
import Verif.Model.UsageWord
import Verif.Model.Parse
import Verif.Model.Valid
import Verif.Model.Conv
import Verif.Model.Read
import Verif.Model.Copies
import Verif.Model.Stateful
import Verif.Model.Failing
import Verif.Props.Tokens
import Verif.Props.Valid
import Verif.Props.Wrap
import Verif.Props.Convert
import Verif.Props.Registry
import Verif.Props.Registry2
import Verif.Props.Order
import Verif.Props.Listing
import Verif.Props.ParseConfig
import Verif.Props.Kinds
import Verif.Props.Repeat
import Verif.Props.Memory
import Verif.Props.Parse
import Verif.Props.Values
import Verif.Props.After
import Verif.Props.Lines
import Verif.Props.Again
import Verif.Props.Defaults
import Verif.Props.Total
import Verif.Props.Safe
import Verif.Props.Single
import Verif.Props.Usage
import Verif.Props.Clear
import Verif.Props.Numbers
import Verif.Props.Store
import Verif.Props.Settings
import Verif.Props.Faults
import Verif.Props.Classes
import Verif.Props.Read
import Verif.Props.Blocks
import Verif.Props.Same
import Verif.Props.Writes
import Verif.Props.Extend
import Verif.Props.Write
import Verif.Props.Declare
import Verif.Props.Undo
import Verif.Props.Texts
import Verif.Props.Callback
import Verif.Props.Copies
import Verif.Props.Stateful
import Verif.Props.Fits
import Verif.Props.Looking
import Verif.Props.Lists
import Verif.Props.UsageWord
import Verif.Props.Shown
import Verif.Props.Emptied
import Verif.Check.Registry
import Verif.Check.Usage
import Verif.Check.Parse
import Verif.Props.Alloc
import Verif.Props.Edits
import Verif.Props.Calling
import Verif.Props.Failing
import Verif.Props.Interrupted
import Verif.Props.Anytime
import Verif.Props.Lax
import Verif.Props.Required
import Verif.Props.Strict
import Verif.Props.Promise
import Verif.Props.Within
import Verif.Props.Given
import Verif.Props.Compose
import Verif.Props.Opaque
import Verif.Props.Repeated
import Verif.Props.Parts
import Verif.Props.Replay
import Verif.Props.Alias
import Verif.Props.DefaultText
import Verif.Props.Unspell
import Verif.Props.Spread
import Verif.Props.Ends
import Verif.Props.Answers
import Verif.Props.Redirected
import Verif.Props.Surplus
import Verif.Props.Spare
import Verif.Props.Collect
