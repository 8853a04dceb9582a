/-!
Model of `shell_quote` (code/latte/latte_system.cpp:50-69) and, as specification, of how a POSIX shell splits a command
line into words (Shell Command Language 2.2, 2.3), as far as single quotes, backslashes and blanks go.
-/

namespace Latte.Shell

/-- latte_system.cpp:55 the conservative character set. -/
def plainChars : List Char :=
  "abcdefghijklmnopqrstuvwxyzABCDEFGHIJKLMNOPQRSTUVWXYZ0123456789_-+/.".toList

/-- latte_system.cpp:59-63 loop body. -/
def escapeBody : List Char → List Char
  | [] => []
  | c :: cs => if c = '\'' then '\\' :: c :: escapeBody cs else c :: escapeBody cs

/-- latte_system.cpp:50-69 `shell_quote`. -/
def shellQuote (a : List Char) : List Char :=
  if a.any (fun c => !plainChars.contains c) then '\'' :: (escapeBody a ++ ['\'']) else a

/-! ### Specification: the shell -/

/-- What the shell makes of a command line. -/
inductive Out where
  /-- exactly these words -/
  | words (ws : List (List Char))
  /-- the line ends inside a quotation (or after a backslash): the command is not complete -/
  | unterminated
  /-- the shell acts on this unquoted special character (substitution, redirection, end of command, pattern, ...) -/
  | special (c : Char)
deriving DecidableEq, Repr

/-- unquoted characters with a meaning other than themselves (other than quote, backslash and blanks) -/
def specialChars : List Char := "|&;<>()$`\"*?[#~=%!{}\n".toList

/-- prefix a word -/
def Out.push (w : List Char) : Out → Out
  | .words ws => .words (w :: ws)
  | o => o

/-- finish the word being collected, if any -/
def flush (cur : Option (List Char)) (o : Out) : Out :=
  match cur with
  | none => o
  | some w => o.push w

/-- append a character to the word being collected -/
def app (cur : Option (List Char)) (c : Char) : Option (List Char) := some (cur.getD [] ++ [c])

/-- Reading modes. -/
inductive Mode where
  | plain | quoted | escaped
deriving DecidableEq

/-- the word splitter; `cur` is the word collected so far (`none`: between words) -/
def split : Mode → Option (List Char) → List Char → Out
  | .plain, cur, [] => flush cur (.words [])
  | .quoted, _, [] => .unterminated
  | .escaped, _, [] => .unterminated
  | .plain, cur, c :: cs =>
    if c = '\'' then split .quoted (some (cur.getD [])) cs
    else if c = '\\' then split .escaped cur cs
    else if c = ' ' ∨ c = '\t' then flush cur (split .plain none cs)
    else if specialChars.contains c then .special c
    else split .plain (app cur c) cs
  | .quoted, cur, c :: cs =>
    if c = '\'' then split .plain cur cs else split .quoted (app cur c) cs
  | .escaped, cur, c :: cs =>
    if c = '\n' then split .plain cur cs else split .plain (app cur c) cs

/-- the shell's view of a whole command line -/
def shell (line : List Char) : Out := split .plain none line

end Latte.Shell
