import Verif.Py.Str
/-!
# Messages on a stream

Model of bitbake/lib/bb/asyncrpc/connection.py:14-96: how a message, a JSON text, is cut into lines and put
together again.  A stream is the text that was written; bytes are characters (`json.dumps` writes ASCII).  Not
modelled: JSON itself (whether a text is one of an object with the key `chunk-stream` is a parameter), timeouts
and web sockets, which send a message as a whole.
-/

namespace Bb.Chunk

open Py

/-- connection.py:26: `json.dumps({"chunk-stream": None})`. -/
def marker : Str := "{\"chunk-stream\": null}".toList

/-- connection.py:28-29: `zip_longest` of the iterator with itself gives pieces of `n` characters.  The first
number bounds the steps. -/
def piecesGo (n : Nat) : Nat → Str → List Str
  | 0, _ => []
  | _ + 1, [] => []
  | k + 1, c :: s => (c :: s).take n :: piecesGo n k ((c :: s).drop n)

/-- connection.py:28-29. -/
def pieces (n : Nat) (s : Str) : List Str := piecesGo n s.length s

/-- connection.py:22-31, `chunkify`. -/
def chunkify (msg : Str) (max : Nat) : List Str :=
  if msg.length < max - 1 then [msg ++ ['\n']]
  else [marker ++ ['\n']] ++ (pieces (max - 1) msg).map (· ++ ['\n']) ++ [['\n']]

/-- connection.py:51-54, `send_message`: what is written. -/
def written (max : Nat) (msg : Str) : Str := (chunkify msg max).flatten

/-- connection.py:88-89, 93-94: the connection is closed, or a line has no end. -/
inductive Err where
  | closed
  | bad
  deriving DecidableEq, Repr

/-- connection.py:79-96, `recv`: a line without white space at its end, and what is left on the stream. -/
def recv (s : Str) : Except Err (Str × Str) :=
  if s = [] then .error .closed
  else
    match s.dropWhile (· ≠ '\n') with
    | [] => .error .bad
    | _ :: rest => .ok (rstrip (s.takeWhile (· ≠ '\n') ++ ['\n']), rest)

/-- connection.py:64-69: lines until an empty one.  The number bounds the steps. -/
def recvLines : Nat → Str → Str → Except Err (Str × Str)
  | 0, _, _ => .error .closed
  | k + 1, acc, s =>
    match recv s with
    | .error e => .error e
    | .ok (l, rest) => if l = [] then .ok (acc, rest) else recvLines k (acc ++ l) rest

/-- connection.py:56-73, `recv_message`: the text that is given to `json.loads` in the end.  `isMark` says
whether the object of a text has the key `chunk-stream`. -/
def recvMessage (isMark : Str → Bool) (s : Str) : Except Err (Str × Str) :=
  match recv s with
  | .error e => .error e
  | .ok (l, rest) => if isMark l then recvLines (rest.length + 1) [] rest else .ok (l, rest)

/-- A reader that takes messages until there is an error; the number bounds the steps. -/
def recvAll (isMark : Str → Bool) : Nat → Str → List Str
  | 0, _ => []
  | k + 1, s =>
    match recvMessage isMark s with
    | .error _ => []
    | .ok (m, rest) => m :: recvAll isMark k rest

end Bb.Chunk
