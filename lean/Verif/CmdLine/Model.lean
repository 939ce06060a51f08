/-!
# Model: command lines as one string (lib/file_utils.cpp 582–712)

Strings are lists of characters. `parse_cmd_line` is the loop over the characters with its three state
variables (the current word, `inside_quote`, `had_escape`); the list of words is built from the front.
-/
namespace MZ
namespace CmdLine

/-- The characters of C++ escape sequences that Lean has no name for. -/
def bell : Char := Char.ofNat 7
def backspace : Char := Char.ofNat 8
def formFeed : Char := Char.ofNat 12
def vtab : Char := Char.ofNat 11

/-- 630–656: the text of an escaped character outside quotes. -/
def unescape (c : Char) : List Char :=
  if c = 'a' then [bell]
  else if c = 'b' then [backspace]
  else if c = 'f' then [formFeed]
  else if c = 'n' then ['\n']
  else if c = 'r' then ['\r']
  else if c = 't' then ['\t']
  else if c = 'v' then [vtab]
  else ['\\', c]

/-- 582–664 `parse_cmd_line`: `cur` is the content of `oss`. -/
def parseGo : List Char → List Char → Bool → Bool → List (List Char)
  | [], cur, _, _ => [cur]
  | c :: s, cur, true, esc =>
    if c = '"' then
      if esc then parseGo s (cur ++ ['"']) true false else parseGo s cur false false
    else if c = '\\' then parseGo s cur true true
    else parseGo s (cur ++ (if esc then ['\\'] else []) ++ [c]) true false
  | c :: s, cur, false, esc =>
    if c = ' ' then
      if esc then parseGo s (cur ++ [' ']) false false else cur :: parseGo s [] false false
    else if c = '\\' then
      if esc then parseGo s (cur ++ ['\\']) false false else parseGo s cur false true
    else if c = '"' then
      if esc then parseGo s (cur ++ ['"']) false false else parseGo s cur true false
    else if esc then parseGo s (cur ++ unescape c) false false
    else parseGo s (cur ++ [c]) false false

def parse (s : List Char) : List (List Char) := parseGo s [] false false

/-- 671–704: the text of one character inside the quotes. -/
def escape (c : Char) : List Char :=
  if c = bell then ['\\', 'a']
  else if c = backspace then ['\\', 'b']
  else if c = formFeed then ['\\', 'f']
  else if c = '\n' then ['\\', 'n']
  else if c = '\r' then ['\\', 'r']
  else if c = '\t' then ['\\', 't']
  else if c = vtab then ['\\', 'v']
  else if c = '"' then ['\\', '"']
  else if c = '\\' then ['\\', '\\']
  else [c]

/-- 669–705 one quoted word. -/
def quote (w : List Char) : List Char := ['"'] ++ w.flatMap escape ++ ['"']

/-- 666–712 `combine_cmd_line`. -/
def combine : List (List Char) → List Char
  | [] => []
  | [w] => quote w
  | w :: ws => quote w ++ [' '] ++ combine ws

end CmdLine
end MZ
