/-!
# Model of `select!`, `keep_if`, `reject!`, `delete_if` and `map`
(`/repo/monoruby/src/builtins/array.rs` l.2868-2925, `/repo/monoruby/builtins/array.rb` l.128-150)

The block gets the array as it is and may change it.  A run that ends is a relation.
-/

namespace Verif.Arr

variable {α β σ : Type}

/-- What a call of the block comes to: its value, or `none` for an exception. -/
abbrev Block (σ α β : Type) := σ → α → List α → Option β × σ × List α

/-- How `retain_with_block` ends. -/
inductive Kept (α : Type) where
  /-- whether any were removed, and the array -/
  | done (changed : Bool) (a : List α)
  | raised (a : List α)
  /-- index out of bounds, or a negative length -/
  | panicked

/-- `for j in i..len { ary[j - del] = ary[j] }` (l.2906-2909). -/
def shiftDown (a : List α) (i del : Nat) : List α :=
  (List.range' i (a.length - i)).foldl (fun a j => match a[j]? with | some v => a.set (j - del) v | none => a) a

/-- The error branch (l.2899-2914): `del ≤ i`. -/
def onError (a : List α) (i del : Nat) : Kept α :=
  if del > 0 then
    if a.length < del then .panicked else .raised ((shiftDown a i del).take (a.length - del))
  else .raised a

/-- Behind the loop (l.2917-2924). -/
def atEnd (a : List α) (del : Nat) : Kept α :=
  if del > 0 then (if a.length < del then .panicked else .done true (a.take (a.length - del))) else .done false a

/-- The loop (l.2875-2916) with `i` and `del`; the block's value says whether to keep. -/
inductive Retain (blk : Block σ α Bool) : σ → List α → Nat → Nat → Kept α → Prop
  | finish {s a i del} (h : a.length ≤ i) : Retain blk s a i del (atEnd a del)
  | raise {s a i del v s' a'} (h : a[i]? = some v) (hb : blk s v a = (none, s', a')) :
      Retain blk s a i del (onError a' i del)
  | drop {s a i del v s' a' r} (h : a[i]? = some v) (hb : blk s v a = (some false, s', a'))
      (t : Retain blk s' a' (i + 1) (del + 1) r) : Retain blk s a i del r
  | keep {s a i v s' a' r} (h : a[i]? = some v) (hb : blk s v a = (some true, s', a'))
      (t : Retain blk s' a' (i + 1) 0 r) : Retain blk s a i 0 r
  | move {s a i del v s' a' w r} (h : a[i]? = some v) (hd : 0 < del) (hb : blk s v a = (some true, s', a'))
      (hw : a'[i]? = some w) (t : Retain blk s' (a'.set (i - del) w) (i + 1) del r) : Retain blk s a i del r
  | outOfBounds {s a i del v s' a'} (h : a[i]? = some v) (hd : 0 < del) (hb : blk s v a = (some true, s', a'))
      (hw : a'[i]? = none) : Retain blk s a i del .panicked

/-- `res[i] = v` with `i` the end of what was written so far; `none` is nil. -/
def mapPut (res : List (Option β)) (i : Nat) (v : β) : List (Option β) :=
  if i < res.length then res.set i (some v) else res ++ List.replicate (i - res.length) none ++ [some v]

/-- The loop of `map` (array.rb l.143-148); `none` is an exception. -/
inductive MapRun (blk : Block σ α β) : σ → List α → Nat → List (Option β) → Option (List (Option β)) → Prop
  | finish {s a i res} (h : a.length ≤ i) : MapRun blk s a i res (some res)
  | raise {s a i v s' a' res} (h : a[i]? = some v) (hb : blk s v a = (none, s', a')) : MapRun blk s a i res none
  | step {s a i v w s' a' res r} (h : a[i]? = some v) (hb : blk s v a = (some w, s', a'))
      (t : MapRun blk s' a' (i + 1) (mapPut res i w) r) : MapRun blk s a i res r

/-- `map { … }` (l.140-150): `res = Array.new(self.size)`. -/
def Map (blk : Block σ α β) (s : σ) (a : List α) (r : Option (List (Option β))) : Prop :=
  MapRun blk s a 0 (List.replicate a.length none) r

end Verif.Arr
