import Verif.Model.Containers
/-!
# Loading the standard input or a file (xmq.c 4136-4255)

How much the operating system gives in each call is a list of answers, over which the theorems quantify.
-/
namespace Xmq.Load

/-- What a call of `read` on the standard input does.  `bytes k`: it gives at most `k + 1` bytes, and never more than asked for or
    than there are; it gives none only when there are none left.  `interrupted`: -1 with `EINTR`.  `failed`: -1 with another error. -/
inductive Answer
  | bytes (k : Nat)
  | interrupted
  | failed
  deriving DecidableEq, Repr

/-- What `load_stdin` comes to.  `waiting`: the answers have come to an end and the loop has not. -/
inductive Stdin
  | ok (size : Nat) (buffer : List (Option Byte))
  | failed
  | waiting
  deriving DecidableEq, Repr

/-- The end of `load_stdin`, xmq.c 4161-4168. -/
def stdinEnd (mb : MemBuffer) : Option Stdin :=
  (membufferAppendRegion mb [0]).map fun mb => .ok (mb.used - 1) (membufferContent mb)

/-- The loop of `load_stdin`, xmq.c 4145-4160; `rest` is what has not been read.  `none`: an assertion fails or something is written
    outside the buffer. -/
def stdinLoop (mb : MemBuffer) (rest : List Byte) : List Answer → Option Stdin
  | [] => some .waiting
  | .interrupted :: as => stdinLoop mb rest as
  | .failed :: _ => some .failed
  | .bytes k :: as =>
    let block := rest.take (min (k + 1) 1024)
    if block.length == 0 then stdinEnd mb
    else (membufferAppendRegion mb block).bind fun mb => stdinLoop mb (rest.drop block.length) as

/-- `load_stdin`, xmq.c 4136-4169. -/
def loadStdin (contents : List Byte) (as : List Answer) : Option Stdin := stdinLoop newMembuffer contents as

/-- A file that can be opened: the answer of `ftell` at its end (`none`: -1, as for a pipe) and what reading gives. -/
structure File where
  tell : Option Nat
  contents : List Byte
  deriving DecidableEq, Repr

/-- What `load_file` comes to: loaded, or one of its three errors. -/
inductive Loaded
  | ok (size : Nat) (buffer : List (Option Byte))
  | noFile
  | noMemory
  | cannotRead
  deriving DecidableEq, Repr

/-- `SIZE_MAX + 1`. -/
def word : Nat := 2 ^ 64

/-- `size_t fsize = ftell(f)`, xmq.c 4186. -/
def fileSize (f : File) : Nat := (f.tell.getD (word - 1)) % word

/-- The loop of `load_file`, xmq.c 4203-4209: how much has been read and the buffer.  The list has the most that each `fread` gives,
    0 for a failing one; a `fread` beyond the list fails.  `none`: something is written outside the buffer. -/
def fileLoop (fsize : Nat) (blockSize n : Nat) (buffer : List (Option Byte)) (rest : List Byte) : List Nat →
    Option (Nat × List (Option Byte))
  | [] => some (n, buffer)
  | k :: ks =>
    let blockSize := if n + blockSize > fsize then fsize - n else blockSize
    let block := rest.take (min k blockSize)
    if block.length == 0 then some (n, buffer)
    else
      (blockCopy buffer n block).bind fun buffer =>
        if n + block.length < fsize then fileLoop fsize blockSize (n + block.length) buffer (rest.drop block.length) ks
        else some (n + block.length, buffer)

/-- `load_file`, xmq.c 4171-4229, with `fopen` and `malloc` as given; with a count of the streams left open. -/
def loadFile (file : Option File) (malloc : Nat → Bool) (ks : List Nat) : Option (Loaded × Nat) :=
  match file with
  | none => some (.noFile, 0)
  | some f =>
    let fsize := fileSize f
    let size := (fsize + 1) % word
    if malloc size then
      let blockSize := if fsize > 10000 then 10000 else fsize
      (fileLoop fsize blockSize 0 (List.replicate size none) f.contents ks).bind fun r =>
        if r.1 != fsize then some (.cannotRead, 1)
        else (blockWrite r.2 fsize (some 0)).map fun b => (.ok fsize b, 0)
    else some (.noMemory, 1)

/-- The bytes of a buffer; `none` if one of them has not been. -/
def written (b : List (Option Byte)) : Option (List Byte) :=
  match b with
  | [] => some []
  | none :: _ => none
  | some c :: b => (written b).map (c :: ·)

/-- What `xmqParseFileWithType`, xmq.c 4231-4255, hands to `xmqParseBufferWithType`: the bytes from `buffer` to `buffer+fsize`, and
    the byte at the end of them. -/
def handed (size : Nat) (buffer : List (Option Byte)) : Option (List Byte × Byte) :=
  match written (buffer.take size), buffer[size]? with
  | some s, some (some c) => some (s, c)
  | _, _ => none

end Xmq.Load
