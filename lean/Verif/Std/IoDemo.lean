/-
Cases the theorems about the file library apply to.
-/
import Verif.Std.IoProps

namespace Wrench.Io

/-- A system with the file `f` holding `abcdef`, open for reading and writing as descriptor 1. -/
def demoSys : Sys :=
  { file := fun n => if n = [102#8] then some [97, 98, 99, 100, 101, 102]
      else if n = [101#8] then some [] else none
    readable := fun _ => true
    fds := [none, some { name := [102#8], pos := 2, append := false, canWrite := true }]
    streams := 0
    maxStreams := 3 }

/-- What a call returned. -/
def Res.val : Res → Option Val
  | .ret v _ => some v
  | .crash => none

example : nameOf (.chars [102]) ≠ [] ∧ demoSys.readable (nameOf (.chars [102])) = true ∧
    demoSys.streams < demoSys.maxStreams ∧ demoSys.fds.length < 2 ^ 31 := by decide

example : demoSys.desc 1#32 = some { name := [102#8], pos := 2, append := false, canWrite := true } ∧
    demoSys.file [102#8] = some [97, 98, 99, 100, 101, 102] := by decide

/-- Reading three bytes at a time from position 2, and writing behind the end. -/
example : (readAll (.int 3#32) (.int 1#32) 9 demoSys).map (·.1) = some [99, 100, 101, 102] ∧
    (readAll (.int 3#32) (.int 1#32) 9 demoSys).isSome = true ∧
    overwrite [97, 98] 4 [120] = [97, 98, 0, 0, 120] ∧
    overwrite [97, 98, 99, 100] 1 [120, 121] = [97, 120, 121, 100] := by decide

/-- A file written in pieces. -/
example : (match ioOpen demoSys [.chars [110], .int (O_RDWR ||| O_CREAT ||| O_TRUNC)] with
    | .ret (.int fd) s => (writeAll (.int fd) [[104, 101], [], [121]] s).map
        (fun r => (r.1, (readFile r.2 [.chars [110]]).val))
    | _ => none) =
    some ([.int 2#32, .int 0#32, .int 1#32], some (.chars [104, 101, 121])) := by decide

/-- C91: reading the empty file `e` four times where three streams can be open. -/
example : (readTimes (.chars [101]) 3 demoSys).val = some nothing ∧
    (readTimes (.chars [101]) 4 demoSys).val = none := by decide

/-- Two lines. -/
example : getlines 2 [104, 105, 10, 10, 120] = ([[104, 105], []], [120]) := by decide

/-- Three back from the end of six bytes. -/
example : ∃ s', ioSeek demoSys [.int 1#32, .int (-3), .int 2] = .ret (.int 3) s' ∧
    s'.desc 1#32 = some { name := [102#8], pos := 3, append := false, canWrite := true } := by
  obtain ⟨s', h1, h2, -⟩ := C91_seek_from (s := demoSys) (fd := 1#32)
    (d := { name := [102#8], pos := 2, append := false, canWrite := true }) (c := [97, 98, 99, 100, 101, 102])
    (-3) 2 (by decide) (by decide) (.inr rfl) (q := 3) (by decide)
  exact ⟨s', h1, h2⟩

end Wrench.Io
