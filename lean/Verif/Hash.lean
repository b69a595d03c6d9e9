import Verif.Basic
/-!
# Model of `Hashtable` and `LHashtable` (src/hashtable.hpp, src/lighthash.hpp)

Both are chained tables with a stamp per bucket.  They differ in what a chain element holds: a key
and a value, or a node whose state is the key (then the value is the node).  `hash` and `eq` are the
user's functions; `eq` compares the stored key with the one looked up.
-/
namespace Verif.Hash
variable {K T : Type}

/-- `_primes` (src/hashtable.hpp:34-47, src/lighthash.hpp:34-47). -/
def primes : List Nat :=
  [2, 547, 1229, 1993, 2749, 3581, 4421, 5281, 6143, 7001, 7927, 8837, 9739, 10663, 11677, 12569, 13513,
   14533, 15413, 16411, 17393, 18329, 19427, 20359, 21391, 22343, 23327, 24317, 25409, 26407, 27457,
   28513, 29453, 30577, 31607, 32611, 33617, 34651, 35771, 36787, 37831, 38923, 39979, 41113, 42083,
   43063, 44203, 45317, 46451, 47533, 48619, 49667, 50767, 51817, 52937, 54001, 55109, 56197, 57193,
   58243, 59369, 60509, 61637, 62791, 63823, 65071, 66107, 67247, 68389, 69497, 70663, 71719, 72859,
   73999, 75083, 76213, 77359, 78487, 79627, 80737, 81817, 82903, 84131, 85243, 86381, 87557, 88807,
   89867, 90989, 92177, 93187, 94351, 95443, 96587, 97829, 98953, 100129, 101287, 102329, 103613,
   104743, 105953, 107053, 108271, 109397, 110603, 111791, 112997, 114143, 115327, 116461, 117673,
   118831, 119993, 121139, 122263, 123449, 124601, 125753, 126989, 128201, 129287, 130457, 131707,
   132857, 134059, 135281, 136393, 137483, 138647, 139907, 141067, 142183, 143503, 144737, 145933,
   147137, 148361, 149423, 150589, 151717, 152897, 154127, 155333, 156601, 157747, 159023, 160183,
   161407, 162671, 163847, 165083, 166357, 167483, 168869, 170047, 171179, 172399, 173651, 174799,
   176087, 177211, 178489, 179581, 180751, 182089, 183289, 184477, 185651, 186761, 187973, 189253,
   190471, 191677, 192853, 194017, 195311, 196561, 197759, 198943, 200191, 201511, 202717, 203971,
   205213, 206383, 207569, 208739, 209939]

/-- `int m = (low + up)/2` (src/hashtable.hpp:60): a `size_t` stored in an `int`. -/
def mid (low up : Nat) : Int :=
  let x : Nat := ((low + up) % 2 ^ 64) / 2 % 2 ^ 32
  if x < 2 ^ 31 then x else (x : Int) - 2 ^ 32

/-- The binary search (src/hashtable.hpp:58-70); `none` reads outside the table.  Each round
halves the interval, the fuel covers more than its size. -/
def bsearch (sz : Nat) : Nat → Nat → Nat → Option Nat
  | 0, _, _ => none
  | f + 1, low, up =>
    if low ≤ up then
      let m := mid low up
      if m < 0 then none
      else match primes[m.toNat]? with
        | none => none
        | some q =>
          if sz < q then bsearch sz f low (if m.toNat = 0 then 2 ^ 64 - 1 else m.toNat - 1)
          else if sz > q then bsearch sz f (m.toNat + 1) up
          else some m.toNat
    else some low

/-- `_mxs` (src/hashtable.hpp:71). -/
def tabSize (sz : Nat) : Option Nat :=
  (bsearch sz 1000 0 (primes.length - 1)).bind fun low =>
    if low ≥ primes.length then primes[primes.length - 1]? else primes[low]?

/-- The table (src/hashtable.hpp:48-54). -/
structure HT (K T : Type) where
  tab : Nat → List (K × T)
  mgc : Nat → Nat
  mxs : Nat
  magic : Nat
  nbp : Nat

/-- Constructor (src/hashtable.hpp:71-78). -/
def mk' (sz : Nat) : Option (HT K T) :=
  (tabSize sz).map fun n => ⟨fun _ => [], fun _ => 0, n, 1, 0⟩

/-- Live chain of a bucket, `(_mgc[at]==_magic) ? _tab[at] : nullptr`. -/
def chain (h : HT K T) (i : Nat) : List (K × T) := if h.mgc i = h.magic then h.tab i else []

/-- Put a new element in front of a bucket (src/hashtable.hpp:90-92, 118-121, 125-128;
src/lighthash.hpp:101-106, 107-113). -/
def link (h : HT K T) (i : Nat) (k : K) (v : T) : HT K T :=
  { h with
    tab := upd h.tab i ((k, v) :: chain h i), mgc := upd h.mgc i h.magic, nbp := (h.nbp + 1) % 2 ^ 32 }

/-- Overwrite the data of the first element with an equal key (src/hashtable.hpp:83-89). -/
def over (eq : K → K → Bool) (k : K) (v : T) : List (K × T) → List (K × T)
  | [] => []
  | e :: l => if eq e.1 k then (e.1, v) :: l else e :: over eq k v l

section
variable (hash : K → Nat) (eq : K → K → Bool)

/-- `insert` (src/hashtable.hpp:79-93). -/
def insert (h : HT K T) (k : K) (v : T) : HT K T :=
  let i := hash k % h.mxs
  if (chain h i).any (fun e => eq e.1 k) then { h with tab := upd h.tab i (over eq k v (h.tab i)) }
  else link h i k v

/-- `getLoc` and `get` (src/hashtable.hpp:102-115, 130-143; src/lighthash.hpp:87-100). -/
def get (h : HT K T) (k : K) : Option T :=
  ((chain h (hash k % h.mxs)).find? (fun e => eq e.1 k)).map (·.2)

/-- `safeInsert` (src/hashtable.hpp:123-129), and `safeInsertAt` at the location `getLoc` returned
for the same key. -/
def safeInsert (h : HT K T) (k : K) (v : T) : HT K T := link h (hash k % h.mxs) k v

/-- `getLoc` and, if nothing is found, `safeInsertAt` (src/dd.hpp:446-461, 352-367). -/
def probe (h : HT K T) (k : K) (v : T) : HT K T × Option T :=
  match get hash eq h k with
  | some x => (h, some x)
  | none => (safeInsert hash h k v, none)

/-- `clear` (src/hashtable.hpp:145-149, src/lighthash.hpp:115-151). -/
def clear (h : HT K T) : HT K T := { h with magic := (h.magic + 1) % 2 ^ 32, nbp := 0 }

/-- `doOnAll` (src/hashtable.hpp:150-159, src/lighthash.hpp:152-161): the elements in the order they are visited. -/
def doOnAll (h : HT K T) : List (K × T) := (List.range h.mxs).flatMap (chain h)

/-! ### Histories -/

inductive Op (K T : Type) where
  | insert (k : K) (v : T)
  | get (k : K)
  | safeInsert (k : K) (v : T)
  | probe (k : K) (v : T)
  | size
  | clear

inductive Out (T : Type) where
  | unit
  | nat (n : Nat)
  | found (x : Option T)

def step (h : HT K T) : Op K T → HT K T × Out T
  | .insert k v => (insert hash eq h k v, .unit)
  | .get k => (h, .found (get hash eq h k))
  | .safeInsert k v => (safeInsert hash h k v, .unit)
  | .probe k v => ((probe hash eq h k v).1, .found (probe hash eq h k v).2)
  | .size => (h, .nat h.nbp)
  | .clear => (clear h, .unit)

def run : HT K T → List (Op K T) → HT K T × List (Out T)
  | h, [] => (h, [])
  | h, o :: os =>
    let p := step hash eq h o
    let q := run p.1 os
    (q.1, p.2 :: q.2)

end
end Verif.Hash
