import Verif.Model.Document
/-!
# The parser

`Parser::parse` (`parser/src/parser/parser.rs`) with the substitutions of `parser/src/content`.
-/

namespace Adoc

/-- The fields of `Parser` that a parse does not change (parser/parser.rs 26-41), and the arithmetic of the build. -/
structure Config where
  ar : Arith
  renderer : Renderer
  primary : Option Text
  sep : Char
  includes : IncludeHandler

/-- The substitutions of a parser with the given renderer and path separator.  `fuel` bounds the recursion through
passthroughs. -/
def substitutions [Uni] (fuel : Nat) (r : Renderer) (sep : Char) : Subs := fun s g a t =>
  Group.apply fuel { store := s, sep := sep, r := r } g a t

/-- What stays the same while blocks are parsed. -/
def Config.env [Uni] (c : Config) (fuel : Nat) : BlockEnv :=
  ⟨c.ar, substitutions fuel c.renderer c.sep, substitutions fuel Html.renderer '/'⟩

/-- `Parser::parse` (parser/parser.rs 115-128). -/
def Config.parse [Uni] (c : Config) (fuel : Nat) (p : ParserState) (text : Text) : Res (Document × SourceMap × ParserState) :=
  parseDocument (c.env fuel) c.renderer ⟨c.includes, fun s t => (c.env fuel).subs s .header none t⟩ c.primary fuel p text

/-- The configuration of `Parser::default()` (parser/parser.rs 62-81). -/
def Config.default [Uni] (ar : Arith) : Config := ⟨ar, Html.renderer, none, '/', fun _ _ _ _ => none⟩

end Adoc
