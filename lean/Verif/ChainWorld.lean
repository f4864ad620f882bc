import Verif.ChainModel
/-!
# Programs using chains

A program has several `Chain` objects and several `Chain::Block` objects, all sharing
blocks. `COp` is one call of the program, `COp.run` what the code does, and
`COp.Effect` what is expected, in terms of bytes only.
-/
namespace Riegeli.Chn

/-- `Chain::Block(RawBlock*, substr)`, used when the program takes a part of a block of a
chain out of it, `BlockRef::ToChainBlock()` (`chain_details.h:704-711, 832-843`). -/
def pinBlock (H : Heap) (id off len : Nat) : Option (Heap × Nat) := do
  let r ← get H id
  if r.body.size = len then
    let H ← ref H id
    some (H, id)
  else
    match r.body with
    | .sub o off' _ => do
      let H ← ref H o
      newSub H o (off' + off) len
    | _ => do
      let H ← ref H id
      newSub H id off len

/-- `Chain::Block::ToChainBlock(substr)` (`chain.cc:314-317`). -/
def partBlock (H : Heap) (id off len : Nat) : Option (Heap × Nat) := do
  let r ← get H id
  if len = r.body.size then some (H, id) else newSub H id off len

/-- The objects of the program: `Chain`s, and `Chain::Block`s which are not null. -/
structure World where
  heap : Heap := []
  chains : List Ch := []
  held : List Nat := []
deriving Repr

/-- One call. Chains are given by their indices, `Chain::Block`s too. -/
inductive COp where
  /-- `Chain(src)`. -/
  | make (src : Bytes)
  /-- `Chain(const Chain&)`. -/
  | copy (i : Nat)
  /-- `Chain(Chain&&)`. -/
  | move (i : Nat)
  /-- `~Chain()`. -/
  | destroy (i : Nat)
  /-- `c = d`. -/
  | assign (i j : Nat)
  /-- `c = std::move(d)`. -/
  | moveAssign (i j : Nat)
  /-- `Clear()`. -/
  | clear (i : Nat)
  /-- `Reset(src)`. -/
  | reset (i : Nat) (src : Bytes)
  /-- `Reset(std::move(block))`. -/
  | resetBlock (i h : Nat)
  /-- `Append(src, options)`, for bytes. -/
  | append (i : Nat) (src : Bytes) (o : Opts)
  /-- `Prepend(src, options)`, for bytes. -/
  | prepend (i : Nat) (src : Bytes) (o : Opts)
  /-- `AppendBuffer(min_length, recommended_length, max_length, options)`; the program
  fills `n` bytes it got with `f n`. -/
  | appendBuffer (i minLen rec maxLen : Nat) (o : Opts) (f : Nat → Bytes)
  /-- `PrependBuffer()`. -/
  | prependBuffer (i minLen rec maxLen : Nat) (o : Opts) (f : Nat → Bytes)
  /-- `Append(const Chain&)` or `Append(Chain&&)`. -/
  | appendChain (i j : Nat) (own : Ownership) (o : Opts)
  /-- `Prepend(const Chain&)` or `Prepend(Chain&&)`. -/
  | prependChain (i j : Nat) (own : Ownership) (o : Opts)
  /-- `Append(const Block&)` or `Append(Block&&)`. -/
  | appendBlock (i h : Nat) (own : Ownership) (o : Opts)
  /-- `Prepend(const Block&)` or `Prepend(Block&&)`. -/
  | prependBlock (i h : Nat) (own : Ownership) (o : Opts)
  /-- `RemovePrefix(n, options)`. -/
  | removePrefix (i n : Nat) (o : Opts)
  /-- `RemoveSuffix(n, options)`. -/
  | removeSuffix (i n : Nat) (o : Opts)
  /-- `Flatten()`. -/
  | flatten (i : Nat)
  /-- `Chain::Block(object)`. -/
  | external (d : Bytes)
  /-- `Chain::Block` with the bytes from `off` to `off + len` of the `k`-th block of a
  chain. -/
  | pin (i k off len : Nat)
  /-- `Chain::Block` with a part of a `Chain::Block`, replacing it. -/
  | part (h off len : Nat)
  /-- `~Block()`. -/
  | release (h : Nat)

/-- A call changing one chain. -/
def World.on (w : World) (i : Nat) (f : Heap → Ch → Option (Heap × Ch)) : Option World := do
  let c ← w.chains[i]?
  let (H, c) ← f w.heap c
  some { w with heap := H, chains := w.chains.set i c }

/-- A call with two chains. -/
def World.on2 (w : World) (i j : Nat) (f : Heap → Ch → Ch → Option (Heap × Ch × Ch)) :
    Option World := do
  let c ← w.chains[i]?
  let s ← w.chains[j]?
  let (H, c, s) ← f w.heap c s
  some { w with heap := H, chains := (w.chains.set i c).set j s }

/-- A call giving a block to a chain. -/
def World.onBlock (w : World) (i h : Nat) (own : Ownership)
    (f : Heap → Ch → Nat → Option (Heap × Ch)) : Option World := do
  let c ← w.chains[i]?
  let id ← w.held[h]?
  let (H, c) ← f w.heap c id
  some { heap := H, chains := w.chains.set i c,
         held := match own with
           | .pass => w.held.eraseIdx h
           | .share => w.held }

/-- What the code does. -/
def COp.run (env : Env) (w : World) : COp → Option World
  | .make src => do
    let (H, c) ← initBytes env w.heap {} src
    some { w with heap := H, chains := w.chains ++ [c] }
  | .copy i => do
    let s ← w.chains[i]?
    let (H, c) ← copyChain w.heap s
    some { w with heap := H, chains := w.chains ++ [c] }
  | .move i => do
    let s ← w.chains[i]?
    some { w with chains := w.chains.set i (moveChain s).2 ++ [(moveChain s).1] }
  | .destroy i => do
    let s ← w.chains[i]?
    let H ← destroyChain w.heap s
    some { w with heap := H, chains := w.chains.eraseIdx i }
  | .assign i j => w.on2 i j fun H c s => (assignChain H c s).map fun (H, c) => (H, c, s)
  | .moveAssign i j => w.on2 i j fun H c s => Chn.moveAssign H c s
  | .clear i => w.on i fun H c => Chn.clear H c
  | .reset i src => w.on i fun H c => resetBytes env H c src
  | .resetBlock i h => w.onBlock i h .pass fun H c id => Chn.resetBlock env H c id
  | .append i src o => w.on i fun H c => appendBytes env H c src o
  | .prepend i src o => w.on i fun H c => prependBytes env H c src o
  | .appendBuffer i minLen rec maxLen o f => w.on i fun H c => do
    let (H, c, b) ← Chn.appendBuffer env H c minLen rec maxLen o
    fill H c b (f b.len)
  | .prependBuffer i minLen rec maxLen o f => w.on i fun H c => do
    let (H, c, b) ← Chn.prependBuffer env H c minLen rec maxLen o
    fill H c b (f b.len)
  | .appendChain i j own o => w.on2 i j fun H c s => Chn.appendChain env H c s own o
  | .prependChain i j own o => w.on2 i j fun H c s => Chn.prependChain env H c s own o
  | .appendBlock i h own o => w.onBlock i h own fun H c id => appendRawBlock env H c id own o
  | .prependBlock i h own o => w.onBlock i h own fun H c id => prependRawBlock env H c id own o
  | .removePrefix i n o => w.on i fun H c => Chn.removePrefix env H c n o
  | .removeSuffix i n o => w.on i fun H c => Chn.removeSuffix env H c n o
  | .flatten i => w.on i fun H c => (Chn.flatten env H c).map fun (H, c, _) => (H, c)
  | .external d =>
    some { w with heap := (newExternal w.heap d).1, held := w.held ++ [(newExternal w.heap d).2] }
  | .pin i k off len => do
    let c ← w.chains[i]?
    let id ← c.blocks[k]?
    let (H, b) ← pinBlock w.heap id off len
    some { w with heap := H, held := w.held ++ [b] }
  | .part h off len => do
    let id ← w.held[h]?
    let (H, b) ← partBlock w.heap id off len
    some { w with heap := H, held := w.held.eraseIdx h ++ [b] }
  | .release h => do
    let id ← w.held[h]?
    let H ← unref w.heap id
    some { w with heap := H, held := w.held.eraseIdx h }

/-! ### The specification -/

/-- The program as it is expected to look like: the bytes of each chain and of each
`Chain::Block`. -/
structure Values where
  chains : List Bytes := []
  held : List Bytes := []
deriving DecidableEq, Repr

/-- What the program can read: for each chain, the concatenation of its fragments, and
`size()`; for each `Chain::Block`, its data. -/
structure Shows (w : World) (s : Values) : Prop where
  chains : w.chains.map (copyTo w.heap) = s.chains.map some
  sizes : w.chains.map (·.size) = s.chains.map (·.length)
  held : w.held.map (fun id => (view w.heap id).map (·.data)) = s.held.map some

/-- The value of chain `i`. -/
def Values.at (s : Values) (i : Nat) : Bytes := s.chains.getD i []

/-- Only the value of chain `i` changes. -/
def Values.put (s : Values) (i : Nat) (d : Bytes) : Values := { s with chains := s.chains.set i d }

/-- What a call is expected to do to the values: to no others than written here.
The world before the call matters only for which fragments a chain has. -/
def COp.Effect (w : World) (s s' : Values) : COp → Prop
  | .make src => s' = { s with chains := s.chains ++ [src] }
  | .copy i => s' = { s with chains := s.chains ++ [s.at i] }
  | .move i => s' = { s.put i [] with chains := (s.put i []).chains ++ [s.at i] }
  | .destroy i => s' = { s with chains := s.chains.eraseIdx i }
  | .assign i j => s' = s.put i (s.at j)
  | .moveAssign i j => s' = (s.put i (s.at j)).put j []
  | .clear i => s' = s.put i []
  | .reset i src => s' = s.put i src
  | .resetBlock i h => s' = { s.put i (s.held.getD h []) with held := s.held.eraseIdx h }
  | .append i src _ => s' = s.put i (s.at i ++ src)
  | .prepend i src _ => s' = s.put i (src ++ s.at i)
  | .appendBuffer i minLen _ maxLen _ f =>
    ∃ n, minLen ≤ n ∧ n ≤ maxLen ∧ s' = s.put i (s.at i ++ f n)
  | .prependBuffer i minLen _ maxLen _ f =>
    ∃ n, minLen ≤ n ∧ n ≤ maxLen ∧ s' = s.put i (f n ++ s.at i)
  | .appendChain i j .share _ => s' = s.put i (s.at i ++ s.at j)
  | .appendChain i j .pass _ => ∃ d, s' = (s.put i (s.at i ++ s.at j)).put j d
  | .prependChain i j .share _ => s' = s.put i (s.at j ++ s.at i)
  | .prependChain i j .pass _ => ∃ d, s' = (s.put i (s.at j ++ s.at i)).put j d
  | .appendBlock i h .share _ => s' = s.put i (s.at i ++ s.held.getD h [])
  | .appendBlock i h .pass _ =>
    s' = { s.put i (s.at i ++ s.held.getD h []) with held := s.held.eraseIdx h }
  | .prependBlock i h .share _ => s' = s.put i (s.held.getD h [] ++ s.at i)
  | .prependBlock i h .pass _ =>
    s' = { s.put i (s.held.getD h [] ++ s.at i) with held := s.held.eraseIdx h }
  | .removePrefix i n _ => s' = s.put i ((s.at i).drop n)
  | .removeSuffix i n _ => s' = s.put i ((s.at i).take ((s.at i).length - n))
  | .flatten _ => s' = s
  | .external d => s' = { s with held := s.held ++ [d] }
  | .pin i k off len => ∃ c fs, w.chains[i]? = some c ∧ fragments w.heap c = some fs ∧
      s' = { s with held := s.held ++ [((fs.getD k []).drop off).take len] }
  | .part h off len => s' = { s with
      held := s.held.eraseIdx h ++ [((s.held.getD h []).drop off).take len] }
  | .release h => s' = { s with held := s.held.eraseIdx h }

/-- The block pointer array of chain `i` has space for a block which is going to be stored
without making space first: see finding 21 in `DESIGN.md`. This holds if the chain is not
empty (`C30_reset_when_not_empty`), and if it was never used (`C30_reset_when_new`). -/
def Roomy (w : World) (i : Nat) : Prop :=
  ∀ c, w.chains[i]? = some c → c.blocks = [] → ∀ a, c.arr = some a → a.after ≠ 0

/-- What is required of `Chain::Options`: `set_max_block_size()` and
`set_min_block_size()` make the sizes fit in 32 bits, and assert that the maximum is
positive (`chain_base.h:95-140`). -/
def OptsOk (o : Opts) : Prop := 0 < o.maxB ∧ o.maxB < 2 ^ 32 ∧ o.minB < 2 ^ 32

/-- Adding an empty block: see finding 23 in `DESIGN.md`. -/
def EmptyOk (block chain : Bytes) (o : Opts) : Prop :=
  block = [] → 0 < o.minB ∧ o.hint ≠ some chain.length

/-- When a call is allowed: the objects exist, two chains are different, and sizes do not
overflow. -/
def COp.Pre (w : World) (s : Values) : COp → Prop
  | .make src => src.length ≤ maxSize
  | .copy i | .move i | .destroy i | .clear i => i < s.chains.length
  | .assign i j | .moveAssign i j => i < s.chains.length ∧ j < s.chains.length ∧ i ≠ j
  | .reset i src => i < s.chains.length ∧ src.length ≤ maxSize ∧ Roomy w i
  | .resetBlock i h => i < s.chains.length ∧ h < s.held.length ∧ Roomy w i
  | .append i src o | .prepend i src o =>
    i < s.chains.length ∧ OptsOk o ∧ (s.at i).length + src.length ≤ maxSize
  | .appendBuffer i minLen _ maxLen o f | .prependBuffer i minLen _ maxLen o f =>
    i < s.chains.length ∧ OptsOk o ∧ minLen ≤ maxLen ∧ minLen ≤ maxCap ∧
      (s.at i).length + minLen ≤ maxSize ∧ ∀ n, (f n).length = n
  | .appendChain i j _ o | .prependChain i j _ o =>
    i < s.chains.length ∧ j < s.chains.length ∧ i ≠ j ∧ OptsOk o ∧
      (s.at i).length + (s.at j).length ≤ maxSize
  | .appendBlock i h _ o | .prependBlock i h _ o =>
    i < s.chains.length ∧ h < s.held.length ∧ OptsOk o ∧
      (s.at i).length + (s.held.getD h []).length ≤ maxSize ∧ EmptyOk (s.held.getD h []) (s.at i) o
  | .removePrefix i n o | .removeSuffix i n o =>
    i < s.chains.length ∧ n ≤ (s.at i).length ∧ (s.at i).length ≤ maxSize ∧ OptsOk o
  | .flatten i => i < s.chains.length ∧ (s.at i).length ≤ maxCap
  | .external d => d.length ≤ maxCap
  | .pin i k off len => i < s.chains.length ∧ ∃ c id v, w.chains[i]? = some c ∧
      c.blocks[k]? = some id ∧ view w.heap id = some v ∧ off + len ≤ v.data.length
  | .part h off len => h < s.held.length ∧ off + len ≤ (s.held.getD h []).length
  | .release h => h < s.held.length

/-- The worlds which allowed calls can lead to. -/
inductive Reach (env : Env) : World → Prop
  | start : Reach env {}
  | call {w w' : World} {s : Values} (op : COp) : Reach env w → Shows w s → op.Pre w s →
    op.run env w = some w' → Reach env w'

end Riegeli.Chn
