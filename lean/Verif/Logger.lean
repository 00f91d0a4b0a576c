import Mathlib.Data.List.Basic
import Mathlib.Logic.Function.Basic

/-! # Logger

Model of `include/htool/misc/logger.hpp`: the singleton `Logger`, its current writer, and writers of the class `StandartOutputWriter`.
Writers defined by the user (other implementations of `IObjectWriter`) are not modelled. Standard output is the list of lines written. -/

namespace Htool.Log

/-- `LogLevel` (logger.hpp 12-18) seen as its underlying `unsigned int`: `set_current_log_level(unsigned int)` casts any number. -/
abbrev Level := ℕ

/-- `LogLevel::ERROR` (logger.hpp 14). -/
def error : Level := 10

/-- `logging_level_to_string` (logger.hpp 20-41). -/
def levelString (l : Level) : String :=
  match l with
  | 0 => "[Htool critical] "
  | 10 => "[Htool error]    "
  | 20 => "[Htool warning]  "
  | 30 => "[Htool debug]    "
  | 40 => "[Htool info]     "
  | _ => ""

/-- The calls a program can make on `Logger::get_instance()` (logger.hpp 66-81). A writer object is designated by a number; number 0 is
the one the logger creates (logger.hpp 91), the others are created by the program. -/
inductive Call where
  | setLevel (l : Level)
  | log (l : Level) (msg : String)
  | setWriter (w : ℕ)

/-- Current writer (`m_writer`), level of every writer (`m_current_log_level`), lines on standard output. -/
structure State where
  cur : ℕ
  lev : ℕ → Level
  out : List String

/-- Initial state: `m_writer` is writer 0 (logger.hpp 91), and the level of a new writer is `ERROR` (logger.hpp 51). -/
def init : State := ⟨0, fun _ => error, []⟩

/-- `StandartOutputWriter::write` (logger.hpp 54-59). -/
def write (cur : Level) (l : Level) (msg : String) (out : List String) : List String :=
  if l ≤ cur then out ++ [levelString l ++ msg] else out

/-- `set_current_log_level` (logger.hpp 66-67, 60), `log` (logger.hpp 75-77), `set_current_writer` (logger.hpp 73). -/
def step (s : State) : Call → State
  | .setLevel l => { s with lev := Function.update s.lev s.cur l }
  | .log l msg => { s with out := write (s.lev s.cur) l msg s.out }
  | .setWriter w => { s with cur := w }

/-- A history of calls. -/
def run (h : List Call) : State := h.foldl step init

end Htool.Log
