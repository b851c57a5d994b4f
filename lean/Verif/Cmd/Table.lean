import Verif.Cmd.Model

/-!
Model of the command table and of `evcommand`, `/repo/src/cmds.c:2276-2410`.
-/

namespace Verif.Cmd

open Verif.Num Verif.Resp Verif.Cache

/-- The functions of the command table. -/
inductive Fn where
  | cmdSET | cmdGET | cmdDEL | cmdMGET | cmdTTL | cmdEXPIRE | cmdSETEX | cmdDBSIZE | cmdQUIT | cmdECHO | cmdEXISTS | cmdFLUSHALL | cmdMONITOR | cmdPURGE | cmdSWEEP | cmdKEYS | cmdSELECT | cmdPING | cmdTOUCH | cmdDEBUG | cmdINCRBY | cmdDECRBY | cmdINCR | cmdDECR | cmdAPPEND | cmdPREPEND | cmdAUTH | cmdSAVELOAD | cmdSTATS | cmdVERSION | cmdSCAN
deriving DecidableEq, Repr

/-- The array `cmds`, `/repo/src/cmds.c:2288-2329`. -/
def cmds : List (Bytes × Fn) :=
  [([115, 101, 116], .cmdSET),
   ([103, 101, 116], .cmdGET),
   ([100, 101, 108], .cmdDEL),
   ([109, 103, 101, 116], .cmdMGET),
   ([109, 103, 101, 116, 115], .cmdMGET),
   ([116, 116, 108], .cmdTTL),
   ([112, 116, 116, 108], .cmdTTL),
   ([101, 120, 112, 105, 114, 101], .cmdEXPIRE),
   ([115, 101, 116, 101, 120], .cmdSETEX),
   ([100, 98, 115, 105, 122, 101], .cmdDBSIZE),
   ([113, 117, 105, 116], .cmdQUIT),
   ([101, 99, 104, 111], .cmdECHO),
   ([101, 120, 105, 115, 116, 115], .cmdEXISTS),
   ([102, 108, 117, 115, 104, 100, 98], .cmdFLUSHALL),
   ([102, 108, 117, 115, 104, 97, 108, 108], .cmdFLUSHALL),
   ([102, 108, 117, 115, 104], .cmdFLUSHALL),
   ([109, 111, 110, 105, 116, 111, 114], .cmdMONITOR),
   ([112, 117, 114, 103, 101], .cmdPURGE),
   ([115, 119, 101, 101, 112], .cmdSWEEP),
   ([107, 101, 121, 115], .cmdKEYS),
   ([115, 101, 108, 101, 99, 116], .cmdSELECT),
   ([112, 105, 110, 103], .cmdPING),
   ([116, 111, 117, 99, 104], .cmdTOUCH),
   ([100, 101, 98, 117, 103], .cmdDEBUG),
   ([105, 110, 99, 114, 98, 121], .cmdINCRBY),
   ([100, 101, 99, 114, 98, 121], .cmdDECRBY),
   ([105, 110, 99, 114], .cmdINCR),
   ([100, 101, 99, 114], .cmdDECR),
   ([117, 105, 110, 99, 114, 98, 121], .cmdINCRBY),
   ([117, 100, 101, 99, 114, 98, 121], .cmdDECRBY),
   ([117, 105, 110, 99, 114], .cmdINCR),
   ([117, 100, 101, 99, 114], .cmdDECR),
   ([97, 112, 112, 101, 110, 100], .cmdAPPEND),
   ([112, 114, 101, 112, 101, 110, 100], .cmdPREPEND),
   ([97, 117, 116, 104], .cmdAUTH),
   ([115, 97, 118, 101], .cmdSAVELOAD),
   ([108, 111, 97, 100], .cmdSAVELOAD),
   ([115, 116, 97, 116, 115], .cmdSTATS),
   ([118, 101, 114, 115, 105, 111, 110], .cmdVERSION),
   ([115, 99, 97, 110], .cmdSCAN)]

/-- `tolower(buf[i])` converted to `uint32_t`; `char` is signed, so bytes from 128 on are negative numbers and are sign extended. -/
def lowerU32 (b : UInt8) : Nat := if b < 128 then (lower b).toNat else 2 ^ 32 - 256 + b.toNat

/-- `fnv1a_case`, `/repo/src/util.c:303-309`. -/
def fnv1a (h : Nat) : Bytes → Nat
  | [] => h
  | b :: s => fnv1a ((h ^^^ lowerU32 b) * 0x01000193 % 2 ^ 32) s

/-- `fnv1a_case` from its initial value. -/
def hashName (s : Bytes) : Nat := fnv1a 0x811c9dc5 s

/-- Doubling of `nbuckets` in `build_commands_table`, `/repo/src/cmds.c:2338-2342`; the loop runs at most 64 times. -/
def growBuckets (n : Nat) : Nat → Nat → Nat
  | 0, m => m
  | f + 1, m => if m < n then growBuckets n f (m * 2) else m

/-- `nbuckets`. -/
def nbuckets : Nat := growBuckets (cmds.length * 8) 64 2

/-- The array `buckets`: an empty bucket has no name. -/
abbrev Buckets := List (Option (Bytes × Fn))

/-- The loop placing one command, `/repo/src/cmds.c:2348-2354`. -/
def place (x : Bytes × Fn) (hash : Nat) (bs : Buckets) : Nat → Nat → Buckets
  | 0, _ => bs
  | f + 1, j =>
    let k := (j + hash) % bs.length
    if bs[k]? = some none then bs.set k (some x) else place x hash bs f (j + 1)

/-- `build_commands_table`, `/repo/src/cmds.c:2331-2362` (the locking around it is left out). -/
def buckets : Buckets :=
  cmds.foldl (fun bs x => place x (hashName x.1) bs bs.length 0) (List.replicate nbuckets none)

/-- The loop of `get_cmd`, `/repo/src/cmds.c:2368-2376`, over the rest of the table; running past its end is an error (`none`). -/
def probe (name : Bytes) : Buckets → Option (Option (Bytes × Fn))
  | [] => none
  | none :: _ => some none
  | some x :: bs => if argeq name x.1 then some (some x) else probe name bs

/-- `get_cmd`, `/repo/src/cmds.c:2364-2377`. -/
def getCmd (name : Bytes) : Option (Option (Bytes × Fn)) := probe name (buckets.drop (hashName name % nbuckets))

/-- A connection's share of `struct conn`, `/repo/src/conn.c:27-45`, as far as commands use it. -/
structure ConnSt where
  auth : Bool
deriving DecidableEq, Repr

/-- "CLIENT_ERROR Authentication required", `/repo/src/cmds.c:1977`. -/
def authRequired : Bytes :=
  [67, 76, 73, 69, 78, 84, 95, 69, 82, 82, 79, 82, 32, 65, 117, 116, 104, 101, 110, 116, 105, 99, 97, 116, 105, 111, 110, 32, 114, 101, 113, 117, 105, 114, 101, 100, 13, 10]

/-- `cmdAUTH`, `/repo/src/cmds.c:1941-1986`; `password` is the configured one. -/
def cmdAUTH (e : Env) (password : Bytes) (args : List Bytes) (st : ConnSt) : List W × ConnSt :=
  if argeq (args.headD []) [97, 117, 116, 104] = false then
    ([if e.proto = .memcache then .raw authRequired else .err .noAuth], st)
  else if args.length = 3 then ([.err .wrongPass], st)
  else if args.length > 3 then ([.err .syntaxError], st)
  else
    match args with
    | [_, pw] => if pw ≠ password then ([.err .wrongPass], st) else
        (if e.proto = .postgres then pgEnd [65, 85, 84, 72, 32, 79, 75] else [.str [79, 75]], { st with auth := true })
    | _ => ([.err .wrongNumArgs], st)

/-- Call of `cmd->func`; for functions not modelled here, `other` says what they do. -/
def call (e : Env) (password : Bytes) (other : Fn → Env → List Bytes → Prog (List W)) (fn : Fn) (args : List Bytes) (st : ConnSt) :
    Prog (List W × ConnSt) :=
  let keep : Prog (List W) → Prog (List W × ConnSt) := Prog.map (·, st)
  match fn with
  | .cmdSET => keep (cmdSET e args)
  | .cmdGET => keep (cmdGET e args)
  | .cmdDEL => keep (cmdDEL e args)
  | .cmdMGET => keep (cmdMGET e args)
  | .cmdTTL => keep (cmdTTL e args)
  | .cmdEXPIRE => keep (cmdEXPIRE e args)
  | .cmdSETEX => keep (cmdSETEX e args)
  | .cmdEXISTS => keep (cmdEXISTS e args)
  | .cmdTOUCH => keep (cmdTOUCH e args)
  | .cmdINCRBY => keep (cmdINCRDECRBY e args false)
  | .cmdDECRBY => keep (cmdINCRDECRBY e args true)
  | .cmdINCR => keep (cmdINCRDECR e args false)
  | .cmdDECR => keep (cmdINCRDECR e args true)
  | .cmdAPPEND => keep (cmdAPPEND e args)
  | .cmdPREPEND => keep (cmdAPPEND e args)
  | .cmdAUTH => .ret (cmdAUTH e password args st)
  | fn => keep (other fn e args)

/-- `evcommand`, `/repo/src/cmds.c:2379-2410` (without `monitor_cmd` and the printing of commands).  The password is the empty string when
none is configured (`/repo/src/main.c:57, 738`). -/
def evcommand (e : Env) (password : Bytes) (other : Fn → Env → List Bytes → Prog (List W)) (args : List Bytes) (st : ConnSt) :
    Prog (List W × ConnSt) :=
  let useauth := password ≠ []
  if useauth ∧ st.auth = false ∧ e.proto ≠ .http then .ret (cmdAUTH e password args st)
  else
    match getCmd (args.headD []) with
    | none => .ret ([.undefined], st)
    | some none => .ret ([.err (.unknownCommand (args.headD []))], st)
    | some (some x) => call e password other x.2 args st

end Verif.Cmd
