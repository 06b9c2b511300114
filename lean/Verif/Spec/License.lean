import Mathlib.Data.List.Forall2

/-! # Lines, comments and code of a source file (C94) -/

namespace Dist.Spec

/-- White space of ASCII. -/
def White (c : Char) : Prop := c ∈ [' ', '\t', '\n', '\r', '\x0b', '\x0c']

/-- The text has the lines `ls`; the newline after the last one may be missing. -/
def Lines (text : List Char) (ls : List (List Char)) : Prop :=
  (∀ l ∈ ls, '\n' ∉ l) ∧
    (text = ls.flatMap (fun l => l ++ ['\n']) ∨
      ∃ init last, ls = init ++ [last] ∧ last ≠ [] ∧ text = init.flatMap (fun l => l ++ ['\n']) ++ last)

/-- `t` is `l` without white space at its end. -/
def Trimmed (l t : List Char) : Prop :=
  ∃ w, l = t ++ w ∧ (∀ c ∈ w, White c) ∧ ∀ c ∈ t.getLast?, ¬ White c

/-- `code` are the trimmed lines of the text from the first one that is neither blank nor starts with the comment
symbol. -/
def Code (symbol text : List Char) (code : List (List Char)) : Prop :=
  ∃ ls pre, Lines text ls ∧ List.Forall₂ Trimmed ls (pre ++ code) ∧
    (∀ l ∈ pre, l = [] ∨ symbol <+: l) ∧ ∀ l ∈ code.head?, l ≠ [] ∧ ¬ symbol <+: l

/-- The lines of a text as comments. -/
def commented (symbol : List Char) (text : List (List Char)) : List (List Char) :=
  text.map fun l => if l = [] then symbol else symbol ++ [' '] ++ l

/-- How the lines of a file are commented, by the ending of its name. -/
def commentSymbol : List (String × String) :=
  [(".c", "//"), (".cc", "//"), (".cpp", "//"), (".h", "//"), (".hpp", "//"), (".proto", "//"),
    (".py", "#"), (".pxd", "#"), (".pyx", "#"), (".tex", "%")]

/-- The names of files that are made by programs. -/
def Generated (name : List Char) : Prop :=
  (∃ e ∈ [".pb.h", ".pb.cc", "_pb2.py"], e.toList <:+ name) ∨ name = "test_headers.cc".toList

end Dist.Spec
