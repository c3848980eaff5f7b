import Verif.Vstr.Edit
import Verif.Veri.Model
/-!
# Model of `getDescription` and `getMarkupFlag` (src/mmdata.c 3009–3025, 3086–3161)

`g` is what the buffers of `edit` hold beyond the string.  Simplifications: the two markup strings have their defaults (there is no command that changes them); storage is not modelled.
-/
namespace MM.Mark
open MM.Vstr MM.Veri

/-- What of the statements is used: `g_statements`, `type`, and the text of the label section. -/
structure Db where
  n : Nat
  kind : Nat → Kind
  sec : Nat → Str

/-- `PROOF_DISCOURAGED_MARKUP` (mmdata.h 305) -/
def proofMarkup : Str := "(Proof modification is discouraged.)".toList
/-- `USAGE_DISCOURAGED_MARKUP` (mmdata.h 306) -/
def usageMarkup : Str := "(New usage is discouraged.)".toList

/-- `getDescription` (mmdata.c 3009–3025) -/
def getDescription (g : Nat → Char) (sec : Str) : Out Str :=
  rinstr (sec.length + 1) sec "$(".toList >>= fun p1 =>
  rinstr (sec.length + 1) sec "$)".toList >>= fun p2 =>
  if p1 = 0 ∨ p2 = 0 ∨ p2 < p1 then .val []
  else seg sec ((p1 : Int) + 2) ((p2 : Int) - 1) >>= fun t => edit (8 + 128) g t

/-- The static variables (mmdata.c 3096–3099); `none`: `init` is 0. -/
structure Cache where
  searched : Str
  proof : Str
  usage : Str

/-- `init == 0` (mmdata.c 3110–3126) -/
def start (n : Nat) : Cache := ⟨List.replicate (n + 1) 'N', List.replicate (n + 1) ' ', List.replicate (n + 1) ' '⟩

/-- Assignment to a character of a string -/
def poke (s : Str) (i : Nat) (c : Char) : Out Str := if i < s.length then .val (s.set i c) else .ub

/-- The first time for a statement (mmdata.c 3131–3154) -/
def fillIn (g : Nat → Char) (db : Db) (c : Cache) (i : Nat) : Out Cache :=
  (if db.kind i = .f ∨ db.kind i = .e then .val (false, false)
   else if db.kind i ≠ .a ∧ db.kind i ≠ .p then .bug 1393
   else getDescription g (db.sec i) >>= fun d => edit (4 + 8 + 16 + 128) g d >>= fun t =>
     .val (decide (instr 1 t proofMarkup ≠ 0), decide (instr 1 t usageMarkup ≠ 0))) >>= fun b =>
  poke c.proof i (if b.1 then 'Y' else 'N') >>= fun p =>
  poke c.usage i (if b.2 then 'Y' else 'N') >>= fun u =>
  poke c.searched i 'Y' >>= fun s => .val ⟨s, p, u⟩

/-- `getMarkupFlag(i, mode)` for modes other than RESET (mmdata.c 3110–3160): the answer and the static variables. -/
def getMarkupFlag (g : Nat → Char) (db : Db) (o : Option Cache) (i mode : Nat) : Out (Bool × Option Cache) :=
  let c := o.getD (start db.n)
  if i < 1 ∨ db.n < i then .bug 1392
  else Out.read c.searched i >>= fun x =>
    (if x = 'N' then fillIn g db c i else .val c) >>= fun c =>
    if mode = 1 then Out.read c.proof i >>= fun y => .val (y == 'Y', some c)
    else if mode = 2 then Out.read c.usage i >>= fun y => .val (y == 'Y', some c)
    else .bug 1394

end MM.Mark
