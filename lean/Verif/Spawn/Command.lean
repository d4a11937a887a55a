/-!
# Commands of system and spawn

How a command is taken apart before a process is started
(`monoruby/src/builtins/kernel.rs`, `spawn.rs`).  Strings are lists of characters.
Options, environments and the form `[command, argv0]` are not modelled.
-/

namespace Verif.Spawn

abbrev Str := List Char

/-- What is started: `sh -c text` with arguments, or a program with arguments. -/
inductive Start
  | shell (text : Str) (args : List Str)
  | direct (prog : Str) (args : List Str)
deriving DecidableEq, Repr

/-- White space in the sense of `str::split_whitespace` (kernel.rs:3468, 3479). -/
def uniSpace (c : Char) : Bool :=
  c == ' ' || (9 ≤ c.toNat && c.toNat ≤ 13) || c.toNat == 0x85 || c.toNat == 0xA0 ||
    c.toNat == 0x1680 || (0x2000 ≤ c.toNat && c.toNat ≤ 0x200A) || c.toNat == 0x2028 ||
    c.toNat == 0x2029 || c.toNat == 0x202F || c.toNat == 0x205F || c.toNat == 0x3000

/-- The words between runs of separators. -/
def splitOn (p : Char → Bool) : Str → List Str
  | [] => []
  | c :: cs =>
    if p c then splitOn p cs else
    match cs with
    | [] => [[c]]
    | d :: _ =>
      if p d then [c] :: splitOn p cs else
      match splitOn p cs with
      | [] => [[c]]
      | w :: ws => (c :: w) :: ws

/-- The characters of kernel.rs:3465-3468. -/
def metas : List Char :=
  ['*', '?', '{', '}', '[', ']', '<', '>', '(', ')', '~', '&', '|', '\\', '$', ';', '\'', '"', '`',
    '\n']

/-- `POSIX_SH_CMDS` (kernel.rs:3457-3461). -/
def shCmds : List Str :=
  ["!", ".", ":", "break", "case", "continue", "do", "done", "elif", "else", "esac", "eval",
    "exec", "exit", "export", "fi", "for", "if", "in", "read", "readonly", "return", "set",
    "shift", "then", "times", "trap", "umask", "unset", "until", "wait", "while"].map String.toList

/-- `prepare_command_arg` (kernel.rs:3463-3486). -/
def prepare (s : Str) : Start :=
  let first := ((splitOn uniSpace s).head?).getD []
  if (s.any fun c => metas.contains c) || shCmds.contains first then .shell s []
  else
    match splitOn uniSpace s with
    | [] => .direct [] []
    | w :: ws => .direct w ws

/-- `Kernel#system` (kernel.rs:3497-3509). -/
def system (cmd : Str) (args : List Str) : Start :=
  match prepare cmd with
  | .shell t as => .shell t (as ++ args)
  | .direct p as => .direct p (as ++ args)

/-- `Process.spawn` and `exec` (spawn.rs:253-279). -/
def spawn (cmd : Str) (args : List Str) : Start :=
  match args with
  | [] => prepare cmd
  | _ :: _ => .direct cmd args

end Verif.Spawn
