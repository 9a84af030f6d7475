import Verif.Model.Core

/-! Model of `utilities/joint_action_counter.py`. Text is a list of characters; `lower` and the white space are those of ASCII. -/
namespace Model
namespace Joint

abbrev Text := List Char

/-- Python `str.isspace` in ASCII. -/
def isSpace (c : Char) : Bool := c = ' ' || c = '\t' || c = '\n' || c = '\r' || c = '\x0b' || c = '\x0c'

/-- `str.strip`. -/
def strip (t : Text) : Text := ((t.dropWhile isSpace).reverse.dropWhile isSpace).reverse

/-- `str.lower`. -/
def lower (t : Text) : Text := t.map Char.toLower

/-- `str.split()`; `cur` is the word begun. -/
def wordsFrom (cur : Text) : Text → List Text
  | [] => if cur = [] then [] else [cur]
  | c :: t =>
    if isSpace c then (if cur = [] then wordsFrom [] t else cur :: wordsFrom [] t)
    else wordsFrom (cur ++ [c]) t

def words (t : Text) : List Text := wordsFrom [] t

/-- `" ".join(words)`. -/
def joinWords : List Text → Text
  | [] => []
  | [w] => w
  | w :: ws => w ++ ' ' :: joinWords ws

/-- joint_action_counter.py:23, `PARENS_RE.findall` with the pattern `\([^\)]*\)`; `cur` is the match begun. A bracket without a
closing one after it matches nothing. -/
def findallFrom (cur : Option Text) : Text → List Text
  | [] => []
  | c :: t =>
    match cur with
    | none => if c = '(' then findallFrom (some ['(']) t else findallFrom none t
    | some m => if c = ')' then (m ++ [c]) :: findallFrom none t else findallFrom (some (m ++ [c])) t

def findall (t : Text) : List Text := findallFrom none t

/-- `line.find(sub)`: the text behind the first occurrence. -/
def after (sub : Text) : Text → Option Text
  | [] => if sub = [] then some [] else none
  | c :: t => if sub.isPrefixOf (c :: t) then some ((c :: t).drop sub.length) else after sub t

/-- joint_action_counter.py:26-34 `is_nop_token`. -/
def isNop (tok : Text) : Bool :=
  let inner := strip tok
  let inner := if ['('].isPrefixOf inner && [')'].isSuffixOf inner then (inner.drop 1).dropLast else inner
  let inner := lower (joinWords (words inner))
  ["nop".toList, "nop)".toList, "(nop".toList, "no-op".toList, "noop".toList].contains inner || "nop ".toList.isPrefixOf inner

/-- joint_action_counter.py:50-63: the actions of a line. `acc` are the tokens before. The text behind the first `operators:` of the
lower-case line has the length it has in the line itself. -/
def filtered (line : Text) (acc : List Text) : List Text → List Text
  | [] => acc
  | t :: ts =>
    if "operators:".toList.isPrefixOf (lower (strip ((t.drop 1).dropLast))) then
      match after "operators:".toList (lower line) with
      | some r => findall (line.drop (line.length - r.length))
      | none => findall (line.drop 9)
    else filtered line (acc ++ [t]) ts

/-- joint_action_counter.py:42-70: the counters after one line. -/
def count (acc : Nat × Nat) (raw : Text) : Nat × Nat :=
  let line := strip raw
  if "(operators:".toList.isPrefixOf line then
    let f := filtered line [] (findall line)
    if f = [] then (acc.1 + 1, acc.2)
    else if (f.map fun t => if isNop t then 0 else 1).sum = 1 then (acc.1 + 1, acc.2 + 1)
    else (acc.1 + 1, acc.2)
  else acc

/-- joint_action_counter.py:37-72 `analyze_file`, the file as its lines. -/
def analyze (lines : List Text) : Nat × Nat := lines.foldl count (0, 0)

/-- joint_action_counter.py:84-107: the printed rate, before rounding. -/
def rate (files : List (List Text)) : Rat :=
  let j := (files.map fun f => (analyze f).1).sum
  let o := (files.map fun f => (analyze f).2).sum
  if j = 0 then 0 else (o : Rat) / (j : Rat)

end Joint
end Model
