import Verif.Model.Parse
import Verif.Model.Display

/-! # Tests of the model, not proofs: the unit tests of `/repo/src/parse.rs`, replayed. -/

namespace CE

/-- `empty` of `mod parameter` (`/repo/src/parse.rs:773`). -/
example : ∃ r x, (parameter (Span.new (chars! "{}")) 0).1 = .ok (r, x) ∧ r.frag = [] ∧ x.input.frag = chars! "" := ⟨_, _, rfl, rfl, rfl⟩

/-- `named` of `mod parameter` (`/repo/src/parse.rs:781`). -/
example : ∃ r x, (parameter (Span.new (chars! "{string}")) 0).1 = .ok (r, x) ∧ r.frag = [] ∧ x.input.frag = chars! "string" := ⟨_, _, rfl, rfl, rfl⟩

/-- `named_with_spaces` of `mod parameter` (`/repo/src/parse.rs:789`). -/
example : ∃ r x, (parameter (Span.new (chars! "{with space}")) 0).1 = .ok (r, x) ∧ r.frag = [] ∧ x.input.frag = chars! "with space" := ⟨_, _, rfl, rfl, rfl⟩

/-- `named_with_escaped` of `mod parameter` (`/repo/src/parse.rs:800`). -/
example : ∃ r x, (parameter (Span.new (chars! "{with \\{}")) 0).1 = .ok (r, x) ∧ r.frag = [] ∧ x.input.frag = chars! "with \\{" := ⟨_, _, rfl, rfl, rfl⟩

/-- `named_with_closing_paren` of `mod parameter` (`/repo/src/parse.rs:808`). -/
example : ∃ r x, (parameter (Span.new (chars! "{with )}")) 0).1 = .ok (r, x) ∧ r.frag = [] ∧ x.input.frag = chars! "with )" := ⟨_, _, rfl, rfl, rfl⟩

/-- `named_with_emoji` of `mod parameter` (`/repo/src/parse.rs:816`). -/
example : ∃ r x, (parameter (Span.new (chars! "{🦀}")) 0).1 = .ok (r, x) ∧ r.frag = [] ∧ x.input.frag = chars! "🦀" := ⟨_, _, rfl, rfl, rfl⟩

/-- `errors_on_empty` of `mod parameter` (`/repo/src/parse.rs:824`). -/
example : (parameter (Span.new (chars! "")) 0).1 = .error (.error (.other (Span.new []) .tag)) := rfl

/-- `fails_on_escaped_non_reserved` of `mod parameter` (`/repo/src/parse.rs:834`). -/
example : ∃ s, (parameter (Span.new (chars! "{\\r}")) 0).1 = .error (.failure (.escapedNonReservedCharacter s)) ∧ s.frag = chars! "\\r" := ⟨_, rfl, rfl⟩

/-- `fails_on_nested` of `mod parameter` (`/repo/src/parse.rs:848`). -/
example : ∃ s, (parameter (Span.new (chars! "{{nest}}")) 0).1 = .error (.failure (.nestedParameter s)) ∧ s.frag = chars! "{nest}" := ⟨_, rfl, rfl⟩

/-- `fails_on_nested` of `mod parameter` (`/repo/src/parse.rs:848`). -/
example : ∃ s, (parameter (Span.new (chars! "{before{nest}}")) 0).1 = .error (.failure (.nestedParameter s)) ∧ s.frag = chars! "{nest}" := ⟨_, rfl, rfl⟩

/-- `fails_on_nested` of `mod parameter` (`/repo/src/parse.rs:848`). -/
example : ∃ s, (parameter (Span.new (chars! "{{nest}after}")) 0).1 = .error (.failure (.nestedParameter s)) ∧ s.frag = chars! "{nest}" := ⟨_, rfl, rfl⟩

/-- `fails_on_nested` of `mod parameter` (`/repo/src/parse.rs:848`). -/
example : ∃ s, (parameter (Span.new (chars! "{bef{nest}aft}")) 0).1 = .error (.failure (.nestedParameter s)) ∧ s.frag = chars! "{nest}" := ⟨_, rfl, rfl⟩

/-- `fails_on_optional` of `mod parameter` (`/repo/src/parse.rs:866`). -/
example : ∃ s, (parameter (Span.new (chars! "{(nest)}")) 0).1 = .error (.failure (.optionalInParameter s)) ∧ s.frag = chars! "(nest)" := ⟨_, rfl, rfl⟩

/-- `fails_on_optional` of `mod parameter` (`/repo/src/parse.rs:866`). -/
example : ∃ s, (parameter (Span.new (chars! "{before(nest)}")) 0).1 = .error (.failure (.optionalInParameter s)) ∧ s.frag = chars! "(nest)" := ⟨_, rfl, rfl⟩

/-- `fails_on_optional` of `mod parameter` (`/repo/src/parse.rs:866`). -/
example : ∃ s, (parameter (Span.new (chars! "{(nest)after}")) 0).1 = .error (.failure (.optionalInParameter s)) ∧ s.frag = chars! "(nest)" := ⟨_, rfl, rfl⟩

/-- `fails_on_optional` of `mod parameter` (`/repo/src/parse.rs:866`). -/
example : ∃ s, (parameter (Span.new (chars! "{bef(nest)aft}")) 0).1 = .error (.failure (.optionalInParameter s)) ∧ s.frag = chars! "(nest)" := ⟨_, rfl, rfl⟩

/-- `fails_on_unescaped_reserved_char` of `mod parameter` (`/repo/src/parse.rs:884`). -/
example : ∃ s, (parameter (Span.new (chars! "{(opt}")) 0).1 = .error (.failure (.unescapedReservedCharacter s)) ∧ s.frag = chars! "(" := ⟨_, rfl, rfl⟩

/-- `fails_on_unescaped_reserved_char` of `mod parameter` (`/repo/src/parse.rs:884`). -/
example : ∃ s, (parameter (Span.new (chars! "{(n(e)st)}")) 0).1 = .error (.failure (.unescapedReservedCharacter s)) ∧ s.frag = chars! "(" := ⟨_, rfl, rfl⟩

/-- `fails_on_unescaped_reserved_char` of `mod parameter` (`/repo/src/parse.rs:884`). -/
example : ∃ s, (parameter (Span.new (chars! "{{nest}")) 0).1 = .error (.failure (.unescapedReservedCharacter s)) ∧ s.frag = chars! "{" := ⟨_, rfl, rfl⟩

/-- `fails_on_unescaped_reserved_char` of `mod parameter` (`/repo/src/parse.rs:884`). -/
example : ∃ s, (parameter (Span.new (chars! "{l/r}")) 0).1 = .error (.failure (.unescapedReservedCharacter s)) ∧ s.frag = chars! "/" := ⟨_, rfl, rfl⟩

/-- `fails_on_unfinished` of `mod parameter` (`/repo/src/parse.rs:902`). -/
example : ∃ s, (parameter (Span.new (chars! "{")) 0).1 = .error (.failure (.unfinishedParameter s)) ∧ s.frag = chars! "{" := ⟨_, rfl, rfl⟩

/-- `fails_on_unfinished` of `mod parameter` (`/repo/src/parse.rs:902`). -/
example : ∃ s, (parameter (Span.new (chars! "{name ")) 0).1 = .error (.failure (.unfinishedParameter s)) ∧ s.frag = chars! "{" := ⟨_, rfl, rfl⟩

/-- `basic` of `mod optional` (`/repo/src/parse.rs:919`). -/
example : ∃ r x, optional (Span.new (chars! "(string)")) = .ok (r, x) ∧ r.frag = [] ∧ x.input.frag = chars! "string" := ⟨_, _, rfl, rfl, rfl⟩

/-- `with_spaces` of `mod optional` (`/repo/src/parse.rs:927`). -/
example : ∃ r x, optional (Span.new (chars! "(with space)")) = .ok (r, x) ∧ r.frag = [] ∧ x.input.frag = chars! "with space" := ⟨_, _, rfl, rfl, rfl⟩

/-- `with_escaped` of `mod optional` (`/repo/src/parse.rs:935`). -/
example : ∃ r x, optional (Span.new (chars! "(with \\{)")) = .ok (r, x) ∧ r.frag = [] ∧ x.input.frag = chars! "with \\{" := ⟨_, _, rfl, rfl, rfl⟩

/-- `with_closing_brace` of `mod optional` (`/repo/src/parse.rs:943`). -/
example : ∃ r x, optional (Span.new (chars! "(with })")) = .ok (r, x) ∧ r.frag = [] ∧ x.input.frag = chars! "with }" := ⟨_, _, rfl, rfl, rfl⟩

/-- `with_emoji` of `mod optional` (`/repo/src/parse.rs:951`). -/
example : ∃ r x, optional (Span.new (chars! "(🦀)")) = .ok (r, x) ∧ r.frag = [] ∧ x.input.frag = chars! "🦀" := ⟨_, _, rfl, rfl, rfl⟩

/-- `errors_on_empty` of `mod optional` (`/repo/src/parse.rs:956`). -/
example : optional (Span.new (chars! "")) = .error (.error (.other (Span.new []) .tag)) := rfl

/-- `fails_on_empty` of `mod optional` (`/repo/src/parse.rs:966`). -/
example : ∃ s, optional (Span.new (chars! "()")) = .error (.failure (.emptyOptional s)) ∧ s.frag = chars! "()" := ⟨_, rfl, rfl⟩

/-- `fails_on_escaped_non_reserved` of `mod optional` (`/repo/src/parse.rs:980`). -/
example : ∃ s, optional (Span.new (chars! "(\\r)")) = .error (.failure (.escapedNonReservedCharacter s)) ∧ s.frag = chars! "\\r" := ⟨_, rfl, rfl⟩

/-- `fails_on_nested` of `mod optional` (`/repo/src/parse.rs:994`). -/
example : ∃ s, optional (Span.new (chars! "((nest))")) = .error (.failure (.nestedOptional s)) ∧ s.frag = chars! "(nest)" := ⟨_, rfl, rfl⟩

/-- `fails_on_nested` of `mod optional` (`/repo/src/parse.rs:994`). -/
example : ∃ s, optional (Span.new (chars! "(before(nest))")) = .error (.failure (.nestedOptional s)) ∧ s.frag = chars! "(nest)" := ⟨_, rfl, rfl⟩

/-- `fails_on_nested` of `mod optional` (`/repo/src/parse.rs:994`). -/
example : ∃ s, optional (Span.new (chars! "((nest)after)")) = .error (.failure (.nestedOptional s)) ∧ s.frag = chars! "(nest)" := ⟨_, rfl, rfl⟩

/-- `fails_on_nested` of `mod optional` (`/repo/src/parse.rs:994`). -/
example : ∃ s, optional (Span.new (chars! "(bef(nest)aft)")) = .error (.failure (.nestedOptional s)) ∧ s.frag = chars! "(nest)" := ⟨_, rfl, rfl⟩

/-- `fails_on_parameter` of `mod optional` (`/repo/src/parse.rs:1011`). -/
example : ∃ s, optional (Span.new (chars! "({nest})")) = .error (.failure (.parameterInOptional s)) ∧ s.frag = chars! "{nest}" := ⟨_, rfl, rfl⟩

/-- `fails_on_parameter` of `mod optional` (`/repo/src/parse.rs:1011`). -/
example : ∃ s, optional (Span.new (chars! "(before{nest})")) = .error (.failure (.parameterInOptional s)) ∧ s.frag = chars! "{nest}" := ⟨_, rfl, rfl⟩

/-- `fails_on_parameter` of `mod optional` (`/repo/src/parse.rs:1011`). -/
example : ∃ s, optional (Span.new (chars! "({nest}after)")) = .error (.failure (.parameterInOptional s)) ∧ s.frag = chars! "{nest}" := ⟨_, rfl, rfl⟩

/-- `fails_on_parameter` of `mod optional` (`/repo/src/parse.rs:1011`). -/
example : ∃ s, optional (Span.new (chars! "(bef{nest}aft)")) = .error (.failure (.parameterInOptional s)) ∧ s.frag = chars! "{nest}" := ⟨_, rfl, rfl⟩

/-- `fails_on_alternation` of `mod optional` (`/repo/src/parse.rs:1028`). -/
example : ∃ s, optional (Span.new (chars! "(/)")) = .error (.failure (.alternationInOptional s)) ∧ s.frag = chars! "/" := ⟨_, rfl, rfl⟩

/-- `fails_on_alternation` of `mod optional` (`/repo/src/parse.rs:1028`). -/
example : ∃ s, optional (Span.new (chars! "(bef/)")) = .error (.failure (.alternationInOptional s)) ∧ s.frag = chars! "/" := ⟨_, rfl, rfl⟩

/-- `fails_on_alternation` of `mod optional` (`/repo/src/parse.rs:1028`). -/
example : ∃ s, optional (Span.new (chars! "(/aft)")) = .error (.failure (.alternationInOptional s)) ∧ s.frag = chars! "/" := ⟨_, rfl, rfl⟩

/-- `fails_on_alternation` of `mod optional` (`/repo/src/parse.rs:1028`). -/
example : ∃ s, optional (Span.new (chars! "(bef/aft)")) = .error (.failure (.alternationInOptional s)) ∧ s.frag = chars! "/" := ⟨_, rfl, rfl⟩

/-- `fails_on_unescaped_reserved_char` of `mod optional` (`/repo/src/parse.rs:1040`). -/
example : ∃ s, optional (Span.new (chars! "({opt)")) = .error (.failure (.unescapedReservedCharacter s)) ∧ s.frag = chars! "{" := ⟨_, rfl, rfl⟩

/-- `fails_on_unescaped_reserved_char` of `mod optional` (`/repo/src/parse.rs:1040`). -/
example : ∃ s, optional (Span.new (chars! "({n{e}st})")) = .error (.failure (.unescapedReservedCharacter s)) ∧ s.frag = chars! "{" := ⟨_, rfl, rfl⟩

/-- `fails_on_unescaped_reserved_char` of `mod optional` (`/repo/src/parse.rs:1040`). -/
example : ∃ s, optional (Span.new (chars! "((nest)")) = .error (.failure (.unescapedReservedCharacter s)) ∧ s.frag = chars! "(" := ⟨_, rfl, rfl⟩

/-- `fails_on_unfinished` of `mod optional` (`/repo/src/parse.rs:1054`). -/
example : ∃ s, optional (Span.new (chars! "(")) = .error (.failure (.unfinishedOptional s)) ∧ s.frag = chars! "(" := ⟨_, rfl, rfl⟩

/-- `fails_on_unfinished` of `mod optional` (`/repo/src/parse.rs:1054`). -/
example : ∃ s, optional (Span.new (chars! "(name ")) = .error (.failure (.unfinishedOptional s)) ∧ s.frag = chars! "(" := ⟨_, rfl, rfl⟩

/-- `text` of `mod alternative` (`/repo/src/parse.rs:1073`). -/
example : ∃ r t, alternative (Span.new (chars! "string")) = .ok (r, .text t) ∧ r.frag = [] ∧ t.frag = chars! "string" := ⟨_, _, rfl, rfl, rfl⟩

/-- `text` of `mod alternative` (`/repo/src/parse.rs:1073`). -/
example : ∃ r t, alternative (Span.new (chars! "🦀")) = .ok (r, .text t) ∧ r.frag = [] ∧ t.frag = chars! "🦀" := ⟨_, _, rfl, rfl, rfl⟩

/-- `escaped_spaces` of `mod alternative` (`/repo/src/parse.rs:1085`). -/
example : ∃ r t, alternative (Span.new (chars! "bef\\ ")) = .ok (r, .text t) ∧ r.frag = [] ∧ t.frag = chars! "bef\\ " := ⟨_, _, rfl, rfl, rfl⟩

/-- `escaped_spaces` of `mod alternative` (`/repo/src/parse.rs:1085`). -/
example : ∃ r t, alternative (Span.new (chars! "\\ aft")) = .ok (r, .text t) ∧ r.frag = [] ∧ t.frag = chars! "\\ aft" := ⟨_, _, rfl, rfl, rfl⟩

/-- `escaped_spaces` of `mod alternative` (`/repo/src/parse.rs:1085`). -/
example : ∃ r t, alternative (Span.new (chars! "bef\\ aft")) = .ok (r, .text t) ∧ r.frag = [] ∧ t.frag = chars! "bef\\ aft" := ⟨_, _, rfl, rfl, rfl⟩

/-- `optional` of `mod alternative` (`/repo/src/parse.rs:1097`). -/
example : ∃ r o, alternative (Span.new (chars! "(opt)")) = .ok (r, .optional o) ∧ r.frag = [] ∧ o.input.frag = chars! "opt" := ⟨_, _, rfl, rfl, rfl⟩

/-- `not_captures_unescaped_whitespace` of `mod alternative` (`/repo/src/parse.rs:1109`). -/
example : ∃ r t, alternative (Span.new (chars! "text ")) = .ok (r, .text t) ∧ r.frag = [' '] ∧ t.frag = chars! "text" := ⟨_, _, rfl, rfl, rfl⟩

/-- `errors_on_empty` of `mod alternative` (`/repo/src/parse.rs:1126`). -/
example : ∃ s, alternative (Span.new (chars! "")) = .error (.error (.other s .alt)) := ⟨_, rfl⟩

/-- `fails_on_unfinished_optional` of `mod alternative` (`/repo/src/parse.rs:1136`). -/
example : ∃ s, alternative (Span.new (chars! "(")) = .error (.failure (.unfinishedOptional s)) ∧ s.frag = chars! "(" := ⟨_, rfl, rfl⟩

/-- `fails_on_unfinished_optional` of `mod alternative` (`/repo/src/parse.rs:1136`). -/
example : ∃ s, alternative (Span.new (chars! "(opt")) = .error (.failure (.unfinishedOptional s)) ∧ s.frag = chars! "(" := ⟨_, rfl, rfl⟩

/-- `fails_on_escaped_non_reserved` of `mod alternative` (`/repo/src/parse.rs:1148`). -/
example : ∃ s, alternative (Span.new (chars! "(\\r)")) = .error (.failure (.escapedNonReservedCharacter s)) ∧ s.frag = chars! "\\r" := ⟨_, rfl, rfl⟩

/-- `fails_on_escaped_non_reserved` of `mod alternative` (`/repo/src/parse.rs:1148`). -/
example : ∃ s, alternative (Span.new (chars! "\\r")) = .error (.failure (.escapedNonReservedCharacter s)) ∧ s.frag = chars! "\\r" := ⟨_, rfl, rfl⟩

/-- `basic` of `mod alternation` (`/repo/src/parse.rs:1167`). -/
example : ∃ r, alternation (Span.new (chars! "l/🦀")) = .ok (r, [[.text ⟨0, 1, chars! "l"⟩], [.text ⟨2, 1, chars! "🦀"⟩]]) ∧ r.frag = [] := ⟨_, rfl, rfl⟩

/-- `with_optionals` of `mod alternation` (`/repo/src/parse.rs:1198`). -/
example : ∃ r, alternation (Span.new (chars! "l(opt)/(opt)r/l(opt)r")) = .ok (r, [[.text ⟨0, 1, chars! "l"⟩, .optional ⟨⟨2, 1, chars! "opt"⟩⟩], [.optional ⟨⟨8, 1, chars! "opt"⟩⟩, .text ⟨12, 1, chars! "r"⟩], [.text ⟨14, 1, chars! "l"⟩, .optional ⟨⟨16, 1, chars! "opt"⟩⟩, .text ⟨20, 1, chars! "r"⟩]]) ∧ r.frag = [] := ⟨_, rfl, rfl⟩

/-- `with_more_optionals` of `mod alternation` (`/repo/src/parse.rs:1279`). -/
example : ∃ r, alternation (Span.new (chars! "l(opt)(opt)/(opt)(opt)r/(opt)m(opt)")) = .ok (r, [[.text ⟨0, 1, chars! "l"⟩, .optional ⟨⟨2, 1, chars! "opt"⟩⟩, .optional ⟨⟨7, 1, chars! "opt"⟩⟩], [.optional ⟨⟨13, 1, chars! "opt"⟩⟩, .optional ⟨⟨18, 1, chars! "opt"⟩⟩, .text ⟨22, 1, chars! "r"⟩], [.optional ⟨⟨25, 1, chars! "opt"⟩⟩, .text ⟨29, 1, chars! "m"⟩, .optional ⟨⟨31, 1, chars! "opt"⟩⟩]]) ∧ r.frag = [] := ⟨_, rfl, rfl⟩

/-- `errors_without_slash` of `mod alternation` (`/repo/src/parse.rs:1382`). -/
example : ∃ s, alternation (Span.new (chars! "")) = .error (.error (.other s .many1)) := ⟨_, rfl⟩

/-- `errors_without_slash` of `mod alternation` (`/repo/src/parse.rs:1382`). -/
example : ∃ s, alternation (Span.new (chars! "{par}")) = .error (.error (.other s .many1)) := ⟨_, rfl⟩

/-- `errors_without_slash` of `mod alternation` (`/repo/src/parse.rs:1382`). -/
example : ∃ s, alternation (Span.new (chars! "text")) = .error (.error (.other s .tag)) := ⟨_, rfl⟩

/-- `errors_without_slash` of `mod alternation` (`/repo/src/parse.rs:1382`). -/
example : ∃ s, alternation (Span.new (chars! "(opt)")) = .error (.error (.other s .tag)) := ⟨_, rfl⟩

/-- `fails_on_empty_alternation` of `mod alternation` (`/repo/src/parse.rs:1399`). -/
example : ∃ s, alternation (Span.new (chars! "/")) = .error (.failure (.emptyAlternation s)) ∧ s.frag = chars! "/" := ⟨_, rfl, rfl⟩

/-- `fails_on_empty_alternation` of `mod alternation` (`/repo/src/parse.rs:1399`). -/
example : ∃ s, alternation (Span.new (chars! "l/")) = .error (.failure (.emptyAlternation s)) ∧ s.frag = chars! "/" := ⟨_, rfl, rfl⟩

/-- `fails_on_empty_alternation` of `mod alternation` (`/repo/src/parse.rs:1399`). -/
example : ∃ s, alternation (Span.new (chars! "/r")) = .error (.failure (.emptyAlternation s)) ∧ s.frag = chars! "/" := ⟨_, rfl, rfl⟩

/-- `fails_on_empty_alternation` of `mod alternation` (`/repo/src/parse.rs:1399`). -/
example : ∃ s, alternation (Span.new (chars! "l/m/")) = .error (.failure (.emptyAlternation s)) ∧ s.frag = chars! "/" := ⟨_, rfl, rfl⟩

/-- `fails_on_empty_alternation` of `mod alternation` (`/repo/src/parse.rs:1399`). -/
example : ∃ s, alternation (Span.new (chars! "l//r")) = .error (.failure (.emptyAlternation s)) ∧ s.frag = chars! "/" := ⟨_, rfl, rfl⟩

/-- `fails_on_empty_alternation` of `mod alternation` (`/repo/src/parse.rs:1399`). -/
example : ∃ s, alternation (Span.new (chars! "/m/r")) = .error (.failure (.emptyAlternation s)) ∧ s.frag = chars! "/" := ⟨_, rfl, rfl⟩

/-- `fails_on_only_optional` of `mod alternation` (`/repo/src/parse.rs:1411`). -/
example : ∃ s, alternation (Span.new (chars! "text/(opt)")) = .error (.failure (.onlyOptionalInAlternation s)) ∧ s.frag = chars! "text/(opt)" := ⟨_, rfl, rfl⟩

/-- `fails_on_only_optional` of `mod alternation` (`/repo/src/parse.rs:1411`). -/
example : ∃ s, alternation (Span.new (chars! "text/(opt)(opt)")) = .error (.failure (.onlyOptionalInAlternation s)) ∧ s.frag = chars! "text/(opt)(opt)" := ⟨_, rfl, rfl⟩

/-- `fails_on_only_optional` of `mod alternation` (`/repo/src/parse.rs:1411`). -/
example : ∃ s, alternation (Span.new (chars! "(opt)/text")) = .error (.failure (.onlyOptionalInAlternation s)) ∧ s.frag = chars! "(opt)/text" := ⟨_, rfl, rfl⟩

/-- `fails_on_only_optional` of `mod alternation` (`/repo/src/parse.rs:1411`). -/
example : ∃ s, alternation (Span.new (chars! "(opt)/(opt)")) = .error (.failure (.onlyOptionalInAlternation s)) ∧ s.frag = chars! "(opt)/(opt)" := ⟨_, rfl, rfl⟩

/-- `parameters_ids` of `mod expression` (`/repo/src/parse.rs:1433`). -/
example : ∃ r, expression (Span.new (chars! "{string} {string}")) = .ok (r, [.parameter ⟨⟨1, 1, chars! "string"⟩, 0⟩, .whitespaces ⟨8, 1, chars! " "⟩, .parameter ⟨⟨10, 1, chars! "string"⟩, 1⟩]) ∧ r.frag = [] := ⟨_, rfl, rfl⟩

/-- `allows_escaped_optional_parameter_types` of `mod expression` (`/repo/src/parse.rs:1474`). -/
example : ∃ r, expression (Span.new (chars! "\\({int})")) = .ok (r, [.text ⟨0, 1, chars! "\\("⟩, .parameter ⟨⟨3, 1, chars! "int"⟩, 0⟩, .text ⟨7, 1, chars! ")"⟩]) ∧ r.frag = [] := ⟨_, rfl, rfl⟩

/-- `allows_parameter_type_in_alternation` of `mod expression` (`/repo/src/parse.rs:1512`). -/
example : ∃ r, expression (Span.new (chars! "a/i{int}n/y")) = .ok (r, [.alternation [[.text ⟨0, 1, chars! "a"⟩], [.text ⟨2, 1, chars! "i"⟩]], .parameter ⟨⟨4, 1, chars! "int"⟩, 0⟩, .alternation [[.text ⟨8, 1, chars! "n"⟩], [.text ⟨10, 1, chars! "y"⟩]]]) ∧ r.frag = [] := ⟨_, rfl, rfl⟩

/-- `does_allow_parameter_adjacent_to_alternation` of `mod expression` (`/repo/src/parse.rs:1586`). -/
example : ∃ r, expression (Span.new (chars! "{int}st/nd/rd/th")) = .ok (r, [.parameter ⟨⟨1, 1, chars! "int"⟩, 0⟩, .alternation [[.text ⟨5, 1, chars! "st"⟩], [.text ⟨8, 1, chars! "nd"⟩], [.text ⟨11, 1, chars! "rd"⟩], [.text ⟨14, 1, chars! "th"⟩]]]) ∧ r.frag = [] := ⟨_, rfl, rfl⟩

/-- `does_not_allow_alternation_in_optional` of `mod expression` (`/repo/src/parse.rs:1654`). -/
example : ∃ s, expression (Span.new (chars! "three( brown/black) mice")) = .error (.failure (.alternationInOptional s)) ∧ s.frag = chars! "/" := ⟨_, rfl, rfl⟩

/-- `does_not_allow_alternation_with_empty_alternative_by_adjacent_left_parameter` of `mod expression` (`/repo/src/parse.rs:1669`). -/
example : ∃ s, expression (Span.new (chars! "{int}/x")) = .error (.failure (.emptyAlternation s)) ∧ s.frag = chars! "/" := ⟨_, rfl, rfl⟩

/-- `does_not_allow_alternation_with_empty_alternative_by_adjacent_optional` of `mod expression` (`/repo/src/parse.rs:1683`). -/
example : ∃ s, expression (Span.new (chars! "three (brown)/black mice")) = .error (.failure (.onlyOptionalInAlternation s)) ∧ s.frag = chars! "(brown)/black" := ⟨_, rfl, rfl⟩

/-- `does_not_allow_alternation_with_empty_alternative_by_adjacent_right_parameter` of `mod expression` (`/repo/src/parse.rs:1699`). -/
example : ∃ s, expression (Span.new (chars! "x/{int}")) = .error (.failure (.emptyAlternation s)) ∧ s.frag = chars! "/" := ⟨_, rfl, rfl⟩

/-- `does_not_allow_alternation_with_empty_alternative` of `mod expression` (`/repo/src/parse.rs:1712`). -/
example : ∃ s, expression (Span.new (chars! "three brown//black mice")) = .error (.failure (.emptyAlternation s)) ∧ s.frag = chars! "/" := ⟨_, rfl, rfl⟩

/-- `does_not_allow_empty_optional` of `mod expression` (`/repo/src/parse.rs:1726`). -/
example : ∃ s, expression (Span.new (chars! "three () mice")) = .error (.failure (.emptyOptional s)) ∧ s.frag = chars! "()" := ⟨_, rfl, rfl⟩

/-- `does_not_allow_nested_optional` of `mod expression` (`/repo/src/parse.rs:1738`). -/
example : ∃ s, expression (Span.new (chars! "(a(b))")) = .error (.failure (.nestedOptional s)) ∧ s.frag = chars! "(b)" := ⟨_, rfl, rfl⟩

/-- `does_not_allow_optional_parameter_types` of `mod expression` (`/repo/src/parse.rs:1750`). -/
example : ∃ s, expression (Span.new (chars! "({int})")) = .error (.failure (.parameterInOptional s)) ∧ s.frag = chars! "{int}" := ⟨_, rfl, rfl⟩

/-- `does_not_allow_parameter_name_with_reserved_characters` of `mod expression` (`/repo/src/parse.rs:1762`). -/
example : ∃ s, expression (Span.new (chars! "{(string)}")) = .error (.failure (.optionalInParameter s)) ∧ s.frag = chars! "(string)" := ⟨_, rfl, rfl⟩

/-- `does_not_allow_unfinished_parenthesis_1` of `mod expression` (`/repo/src/parse.rs:1774`). -/
example : ∃ s, expression (Span.new (chars! "three (exceptionally\\) {string\\} mice")) = .error (.failure (.unescapedReservedCharacter s)) ∧ s.frag = chars! "{" := ⟨_, rfl, rfl⟩

/-- `does_not_allow_unfinished_parenthesis_2` of `mod expression` (`/repo/src/parse.rs:1790`). -/
example : ∃ s, expression (Span.new (chars! "three (exceptionally\\) {string} mice")) = .error (.failure (.parameterInOptional s)) ∧ s.frag = chars! "{string}" := ⟨_, rfl, rfl⟩

/-- `does_not_allow_unfinished_parenthesis_3` of `mod expression` (`/repo/src/parse.rs:1806`). -/
example : ∃ s, expression (Span.new (chars! "three ((exceptionally\\) strong) mice")) = .error (.failure (.unescapedReservedCharacter s)) ∧ s.frag = chars! "(" := ⟨_, rfl, rfl⟩

/-- `matches_alternation` of `mod expression` (`/repo/src/parse.rs:1822`). -/
example : ∃ r, expression (Span.new (chars! "mice/rats and rats\\/mice")) = .ok (r, [.alternation [[.text ⟨0, 1, chars! "mice"⟩], [.text ⟨5, 1, chars! "rats"⟩]], .whitespaces ⟨9, 1, chars! " "⟩, .text ⟨10, 1, chars! "and"⟩, .whitespaces ⟨13, 1, chars! " "⟩, .text ⟨14, 1, chars! "rats\\/mice"⟩]) ∧ r.frag = [] := ⟨_, rfl, rfl⟩

/-- `matches_anonymous_parameter_type` of `mod expression` (`/repo/src/parse.rs:1893`). -/
example : ∃ r, expression (Span.new (chars! "{}")) = .ok (r, [.parameter ⟨⟨1, 1, chars! ""⟩, 0⟩]) ∧ r.frag = [] := ⟨_, rfl, rfl⟩

/-- `matches_doubly_escaped_parenthesis` of `mod expression` (`/repo/src/parse.rs:1915`). -/
example : ∃ r, expression (Span.new (chars! "three \\(exceptionally) \\{string} mice")) = .ok (r, [.text ⟨0, 1, chars! "three"⟩, .whitespaces ⟨5, 1, chars! " "⟩, .text ⟨6, 1, chars! "\\(exceptionally)"⟩, .whitespaces ⟨22, 1, chars! " "⟩, .text ⟨23, 1, chars! "\\{string}"⟩, .whitespaces ⟨32, 1, chars! " "⟩, .text ⟨33, 1, chars! "mice"⟩]) ∧ r.frag = [] := ⟨_, rfl, rfl⟩

/-- `matches_doubly_escaped_slash` of `mod expression` (`/repo/src/parse.rs:1984`). -/
example : ∃ r, expression (Span.new (chars! "12\\\\/2020")) = .ok (r, [.alternation [[.text ⟨0, 1, chars! "12\\\\"⟩], [.text ⟨5, 1, chars! "2020"⟩]]]) ∧ r.frag = [] := ⟨_, rfl, rfl⟩

/-- `matches_optional_before_alternation` of `mod expression` (`/repo/src/parse.rs:2021`). -/
example : ∃ r, expression (Span.new (chars! "three (brown )mice/rats")) = .ok (r, [.text ⟨0, 1, chars! "three"⟩, .whitespaces ⟨5, 1, chars! " "⟩, .alternation [[.optional ⟨⟨7, 1, chars! "brown "⟩⟩, .text ⟨14, 1, chars! "mice"⟩], [.text ⟨19, 1, chars! "rats"⟩]]]) ∧ r.frag = [] := ⟨_, rfl, rfl⟩

/-- `matches_optional_in_alternation` of `mod expression` (`/repo/src/parse.rs:2086`). -/
example : ∃ r, expression (Span.new (chars! "{int} rat(s)/mouse/mice")) = .ok (r, [.parameter ⟨⟨1, 1, chars! "int"⟩, 0⟩, .whitespaces ⟨5, 1, chars! " "⟩, .alternation [[.text ⟨6, 1, chars! "rat"⟩, .optional ⟨⟨10, 1, chars! "s"⟩⟩], [.text ⟨13, 1, chars! "mouse"⟩], [.text ⟨19, 1, chars! "mice"⟩]]]) ∧ r.frag = [] := ⟨_, rfl, rfl⟩

/-- `err_on_escaped_end_of_line` of `mod expression` (`/repo/src/parse.rs:2164`). -/
example : ∃ s, expression (Span.new (chars! "\\")) = .error (.failure (.escapedEndOfLine s)) := ⟨_, rfl⟩

/-- `empty` of `mod expression` (`/repo/src/parse.rs:2174`). -/
example : ∃ r, expression (Span.new (chars! "")) = .ok (r, []) ∧ r.frag = [] := ⟨_, rfl, rfl⟩

end CE
