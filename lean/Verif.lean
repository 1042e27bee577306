import Verif.Model.Parse
import Verif.Proof.Escaped
import Verif.Proof.Locate
import Verif.Proof.Grammar
import Verif.Prop.Accept
import Verif.Prop.Total
import Verif.Proof.Errors
import Verif.Prop.Errors
import Verif.Prop.Reject
import Verif.Prop.Escape
import Verif.Prop.Scan
import Verif.Prop.Shift
import Verif.Model.RegexSem
import Verif.Model.Expand
import Verif.Prop.Iter
import Verif.Prop.Expand
import Verif.Prop.Custom
import Verif.Prop.CustomLang
import Verif.Prop.Translate
import Verif.Prop.Search
import Verif.Prop.HirSearch
import Verif.Prop.Message
import Verif.Prop.Algebra
import Verif.Spec.Spelled
import Verif.Prop.Spelled
import Verif.Model.Nest
import Verif.Prop.Nest
import Verif.Prop.Hand
import Verif.Test.Parse
import Verif.Test.Expand
import Verif.Prop.Documented
import Verif.Prop.Attribute
import Verif.Prop.Machine
import Verif.Prop.Lookups
import Verif.Prop.Scanner
import Verif.Prop.Generic
import Verif.Prop.Values
import Verif.Prop.Separable
import Verif.Prop.Lookahead
import Verif.Prop.Language
import Verif.Prop.Size
import Verif.Prop.Nested
import Verif.Spec.Steady
import Verif.Spec.CustomPrefer
import Verif.Prop.CustomSearch
import Verif.Spec.Reported
import Verif.Prop.Adequate
import Verif.Spec.Valid
import Verif.Prop.Anchored
import Verif.Spec.Flags
import Verif.Proof.Dropped
import Verif.Prop.Flags
import Verif.Spec.Pieces
import Verif.Prop.Pieces
import Verif.Spec.Segments
import Verif.Prop.Segments
import Verif.Prop.Single
import Verif.Prop.Verbose
import Verif.Spec.Cuts
import Verif.Prop.Cuts
import Verif.Spec.Formatted
import Verif.Proof.Formatted
import Verif.Prop.Formatted
import Verif.Proof.EmptyGroup
import Verif.Spec.Texts
import Verif.Prop.Texts
import Verif.Spec.Levels
import Verif.Prop.Levels
import Verif.Prop.Differ
import Verif.Spec.Longest
import Verif.Prop.Longest
import Verif.Spec.Enclosed
import Verif.Prop.Deeper
import Verif.Spec.Counts
import Verif.Prop.Counts
