/-!
# Messages between the prover's server and its clients
-/

namespace Verif
namespace NetMsg

/-- `MsgStatus` (INOUT/cio_network.h:42-48) without `NWError`: errors of the system calls are not modelled.
`undef` stands for a length below the number of bytes already read, where the code asks for a negative number of bytes. -/
inductive Status where
  | incomplete
  | closed
  | success
  | undef
deriving DecidableEq

/-- `TCPMsgCell` (INOUT/cio_network.h:51-59); bytes are numbers.  `lenBuf` holds only the bytes already read. -/
structure Msg where
  content : List Nat
  len : Nat
  cnt : Nat
  lenBuf : List Nat
deriving DecidableEq

/-- `TCPMsgAlloc` (INOUT/cio_network.c:167-176); `len` is set before it is used, so 0 serves for -1. -/
def empty : Msg := ⟨[], 0, 0, []⟩

/-- `htonl` (used in INOUT/cio_network.c:216): four bytes, the highest one first. -/
def enc (n : Nat) : List Nat := [n / 2 ^ 24 % 256, n / 2 ^ 16 % 256, n / 2 ^ 8 % 256, n % 256]

/-- `ntohl` (used in INOUT/cio_network.c:327). -/
def dec (bs : List Nat) : Nat := bs.foldl (fun n b => n * 256 + b) 0

/-- A string of C in a buffer: what is before the first zero (`strlen` in BASICS/clb_dstrings.c:119). -/
def cstr (bs : List Nat) : List Nat := bs.takeWhile (· != 0)

/-- `TCPMsgPack` (INOUT/cio_network.c:209-221), for strings without zeros. -/
def pack (str : List Nat) : Msg := ⟨enc (str.length + 4) ++ str, str.length + 4, 0, []⟩

/-- `TCPMsgUnpack` (INOUT/cio_network.c:238-244). -/
def unpack (m : Msg) : List Nat := cstr (m.content.drop 4)

/-- `TCPMsgWrite` (INOUT/cio_network.c:261-280): the socket takes `k` bytes of those offered; the result has the bytes written. -/
def write (k : Nat) (m : Msg) : Status × Msg × List Nat :=
  let out := ((m.content.drop m.cnt).take (m.len - m.cnt)).take k
  let m' := { m with cnt := m.cnt + out.length }
  (if m'.len = m'.cnt then .success else .incomplete, m', out)

/-- `TCPMsgSend` (INOUT/cio_network.c:371-384): what is written, for the numbers of bytes the socket takes; `false`: still sending. -/
def send : List Nat → Msg → Bool × List Nat
  | [], _ => (false, [])
  | k :: ks, m =>
    let r := write k m
    if r.1 = .success then (true, r.2.2) else ((send ks r.2.1).1, r.2.2 ++ (send ks r.2.1).2)

/-- How the system answers in one call of `TCPMsgRead`: at most `k1` + 1 bytes for the header, at most `k2` + 1 bytes for the rest (a call of `read`
waits for at least one byte), and what is in the uninitialised `buffer` before. -/
structure Env where
  k1 : Nat
  k2 : Nat
  junk : List Nat
deriving DecidableEq

/-- `TCP_BUF_SIZE` (INOUT/cio_network.c:38). -/
def bufSize : Nat := 1025

/-- `TCPMsgRead` from line 333 on (INOUT/cio_network.c:333-352).  Note `buffer[len] = '\0'` with the number of bytes asked for, not of those read. -/
def readRest (e : Env) (m : Msg) (inp : List Nat) : Status × Msg × List Nat :=
  if m.len < m.cnt then (.undef, m, inp) else
    let want := min (bufSize - 1) (m.len - m.cnt)
    let got := inp.take (min (e.k2 + 1) want)
    if got = [] then (.closed, m, inp) else
      let buffer := got ++ e.junk.drop got.length
      let m' := { m with content := m.content ++ cstr (buffer.take want), cnt := m.cnt + got.length }
      (if m'.len = m'.cnt then .success else .incomplete, m', inp.drop got.length)

/-- `TCPMsgRead` (INOUT/cio_network.c:300-353). -/
def read (e : Env) (m : Msg) (inp : List Nat) : Status × Msg × List Nat :=
  if m.cnt < 4 then
    let got := inp.take (min (e.k1 + 1) (4 - m.cnt))
    if got = [] then (.closed, m, inp) else
      let m1 := { m with cnt := m.cnt + got.length, lenBuf := m.lenBuf ++ got }
      if m1.cnt < 4 then (.incomplete, m1, inp.drop got.length) else
        readRest e { m1 with len := dec m1.lenBuf, content := m1.content ++ m1.lenBuf } (inp.drop got.length)
  else readRest e m inp

/-- `TCPMsgRecv` (INOUT/cio_network.c:402-417) with the answers of the system; `incomplete`: still waiting. -/
def recvMsg : List Env → Msg → List Nat → Status × Msg × List Nat
  | [], m, inp => (.incomplete, m, inp)
  | e :: es, m, inp =>
    let r := read e m inp
    if r.1 = .incomplete then recvMsg es r.2.1 r.2.2 else r

/-- `TCPStringRecv` (INOUT/cio_network.c:464-478): status, string on success, and what is left in the stream. -/
def recv (es : List Env) (inp : List Nat) : Status × Option (List Nat) × List Nat :=
  let r := recvMsg es empty inp
  (r.1, if r.1 = .success then some (unpack r.2.1) else none, r.2.2)

end NetMsg
end Verif
