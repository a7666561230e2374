/-
Parsing of module query strings: mpath/_parser.py.

Simplifications:
* strings are lists of characters; Python's character classes (`str.isspace`, `str.isdigit`,
  `str.isidentifier`, which decide character by character) are parameters (`CharClass`);
* a token's unused field `len` is dropped; every exception is `none`;
* registered extensions are a predicate saying which inputs they accept (`Env.accepts`), since
  the parser only passes the raw text on; aliases are a partial map to selectors;
* fragments are kept as written (`El`), not yet turned into matcher objects.
-/
import Mathlib.Data.List.Basic

namespace FF.MParse

/-- Python's classification of characters. -/
structure CharClass where
  isSpace : Char → Bool
  isDigit : Char → Bool
  isIdStart : Char → Bool
  isIdCont : Char → Bool

/-- `TokenType`: _parser.py:24-44. -/
inductive Kind where
  | leftBracket | rightBracket | leftParen | rightParen | leftBrace | rightBrace | string | digit
  | identifier | forwardSlash | backwardSlash | colon | comma | period | ellipsis | tilde
  | ampersand | asterisk | character | eol
  deriving DecidableEq, Repr

/-- `Token`: _parser.py:47-52. -/
structure Token where
  pos : Nat
  kind : Kind
  raw : List Char
  deriving DecidableEq, Repr

/-- `SINGLE_CHAR_TOKENS`: _parser.py:65-79. -/
def singles : List (Char × Kind) :=
  [('(', .leftParen), (')', .rightParen), ('[', .leftBracket), (']', .rightBracket),
   ('{', .leftBrace), ('}', .rightBrace), (':', .colon), (',', .comma), ('~', .tilde),
   ('&', .ampersand), ('/', .forwardSlash), ('\\', .backwardSlash), ('*', .asterisk)]

/-- `SINGLE_CHAR_TOKENS.get(char, None)`: _parser.py:98. -/
def single (c : Char) : Option Kind := singles.lookup c

/-- `char in "0123456789"`: _parser.py:111. -/
def asciiDigit (c : Char) : Bool :=
  ['0', '1', '2', '3', '4', '5', '6', '7', '8', '9'].contains c

/-- The search for the closing quote, _parser.py:118-120 and 140-141: the number of characters up to
and including the first `"` not directly preceded by a backslash. -/
def closingQuote (prev : Char) : List Char → Option Nat
  | [] => none
  | c :: rest =>
    if c = '"' ∧ prev ≠ '\\' then some 1 else (closingQuote c rest).map (· + 1)

/-- `_tokengen`: _parser.py:82-137.  `skip` counts the characters already consumed by the previous
token. -/
def lex (cc : CharClass) : (skip : Nat) → (pos : Nat) → List Char → List Token
  | _, pos, [] => [⟨pos, .eol, []⟩]
  | skip + 1, pos, _ :: rest => lex cc skip (pos + 1) rest
  | 0, pos, c :: rest =>
    if cc.isSpace c then lex cc 0 (pos + 1) rest
    else match single c with
    | some k => ⟨pos, k, [c]⟩ :: lex cc 0 (pos + 1) rest
    | none =>
      if c = '.' then
        (if (c :: rest).take 3 = ['.', '.', '.'] then ⟨pos, .ellipsis, ['.', '.', '.']⟩
          else ⟨pos, .period, ['.']⟩) :: lex cc 0 (pos + 1) rest
      else if asciiDigit c then
        ⟨pos, .digit, c :: rest.takeWhile cc.isDigit⟩ ::
          lex cc (rest.takeWhile cc.isDigit).length (pos + 1) rest
      else if c = '"' then
        match closingQuote '"' rest with
        | some n => ⟨pos, .string, c :: rest.take n⟩ :: lex cc n (pos + 1) rest
        | none => ⟨pos, .character, [c]⟩ :: ⟨pos, .string, [c]⟩ :: lex cc 0 (pos + 1) rest
      else if cc.isIdStart c then
        ⟨pos, .identifier, c :: rest.takeWhile cc.isIdCont⟩ ::
          lex cc (rest.takeWhile cc.isIdCont).length (pos + 1) rest
      else ⟨pos, .character, [c]⟩ :: lex cc 0 (pos + 1) rest

mutual
/-- One fragment of a query: a name, `*` or `**`, `[tag:spec]`, a negation, or braces. -/
inductive El where
  | path (name : List Char)
  | wild (multi : Bool)
  | ext (tag spec : List Char)
  | inv (e : El)
  | multi (alts : PAlts)
/-- A selector: fragments separated by `/`. -/
inductive PSel where
  | one (e : El)
  | cons (e : El) (s : PSel)
/-- The alternatives in braces. -/
inductive PAlts where
  | one (s : PSel)
  | cons (s : PSel) (as : PAlts)
end

/-- `selector_a / selector_b`: selector.py:78-107. -/
def PSel.append : PSel → PSel → PSel
  | .one e, t => .cons e t
  | .cons e s, t => .cons e (s.append t)

/-- Aliases (`Parser._aliases`) and extensions (`Parser.fragment_extensions`). -/
structure Env where
  accepts : List Char → List Char → Bool
  aliases : List Char → Option PSel

/-- `Parser.consume_until(RIGHT_BRACKET, escape_tokens=[BACKWARD_SLASH])`: _parser.py:272-294. -/
def consumeUntil : Bool → List Token → Option (Token × List Token)
  | _, [] => none
  | escaped, t :: ts =>
    if t.kind = .rightBracket ∧ escaped = false then some (t, ts)
    else if t.kind = .eol then none
    else if t.kind = .backwardSlash ∧ escaped = false then consumeUntil true ts
    else consumeUntil false ts

/-- `self._src[a : b]`. -/
def slice (src : List Char) (a b : Nat) : List Char := (src.drop a).take (b - a)

/-- `_parse_extension` after its `[`: _parser.py:364-386. -/
def pExt (env : Env) (src : List Char) : List Token → Option (PSel × List Token)
  | tag :: colon :: ts =>
    if tag.kind = .identifier ∧ colon.kind = .colon then
      match consumeUntil false ts with
      | some (rb, r) =>
        if env.accepts tag.raw (slice src (colon.pos + 1) rb.pos) then
          some (.one (.ext tag.raw (slice src (colon.pos + 1) rb.pos)), r)
        else none
      | none => none
    else none
  | _ => none

/-- `~selector`: selector.py:112-114 and 230-242.  Braces and longer selectors cannot be
inverted. -/
def invert : PSel → Option PSel
  | .one (.multi _) => none
  | .one e => some (.one (.inv e))
  | .cons _ _ => none

/-- `_parse_alias` after its `&`: _parser.py:400-406. -/
def pAlias (env : Env) : List Token → Option (PSel × List Token)
  | t :: ts => if t.kind = .identifier then (env.aliases t.raw).map (fun s => (s, ts)) else none
  | [] => none

mutual
/-- `_parse_fragment` and `_parse_path_fragment`: _parser.py:335-362.  `fuel` bounds the recursion. -/
def pFrag (env : Env) (src : List Char) : Nat → List Token → Option (PSel × List Token)
  | 0, _ => none
  | _ + 1, [] => none
  | fuel + 1, t :: ts =>
    match t.kind with
    | .leftBracket => pExt env src ts
    | .digit => some (.one (.path t.raw), ts)
    | .identifier => some (.one (.path t.raw), ts)
    | .asterisk =>
      match ts with
      | t2 :: ts2 =>
        if t2.kind = .asterisk then some (.one (.wild true), ts2) else some (.one (.wild false), ts)
      | [] => none
    | .leftBrace => (pAlts env src fuel ts).map (fun r => (.one (.multi r.1), r.2))
    | .tilde => (pFrag env src fuel ts).bind (fun r => (invert r.1).map (fun s => (s, r.2)))
    | .ampersand => pAlias env ts
    | _ => none
/-- `_parse_selector`: _parser.py:320-333. -/
def pSel (env : Env) (src : List Char) : Nat → List Token → Option (PSel × List Token)
  | 0, _ => none
  | fuel + 1, ts =>
    (pFrag env src fuel ts).bind fun r =>
      match r.2 with
      | t :: t2 :: ts2 =>
        if t.kind = .forwardSlash then
          if t2.kind = .eol then some (r.1, t2 :: ts2)
          else (pSel env src fuel (t2 :: ts2)).map (fun r' => (r.1.append r'.1, r'.2))
        else some r
      | _ => some r
/-- `_parse_multi_selector` after its `{`: _parser.py:388-398. -/
def pAlts (env : Env) (src : List Char) : Nat → List Token → Option (PAlts × List Token)
  | 0, _ => none
  | fuel + 1, ts =>
    (pSel env src fuel ts).bind fun r =>
      match r.2 with
      | [] => none
      | t :: ts2 =>
        if t.kind = .comma then (pAlts env src fuel ts2).map (fun r' => (.cons r.1 r'.1, r'.2))
        else if t.kind = .rightBrace then some (.one r.1, ts2)
        else none
end

/-- `consume(FORWARD_SLASH)` at the start: _parser.py:312. -/
def dropSlash : List Token → List Token
  | t :: ts => if t.kind = .forwardSlash then ts else t :: ts
  | [] => []

/-- Enough recursion depth for a token list. -/
def fuelFor (ts : List Token) : Nat := 3 * ts.length + 3

/-- `parse(raw, context, aliases)`: _parser.py:311-318 and 435-443. -/
def parse (cc : CharClass) (env : Env) (src : List Char) : Option PSel :=
  let ts := dropSlash (lex cc 0 0 src)
  match pSel env src (fuelFor ts) ts with
  | some (s, t :: _) => if t.kind = .eol then some s else none
  | _ => none

end FF.MParse
