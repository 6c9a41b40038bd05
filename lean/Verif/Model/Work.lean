import Verif.Model.Life

/-!
# Working memory of calls (zm_le*.c, zm_mat_eig.c, zm_opt_*.c, zm_ip*.c, zm_gng.c, zm_mva_gmm.c)

As in `Verif.Model.Life`, what is modelled is which blocks are allocated and freed and of which size; which allocations succeed is arbitrary.  The computation between allocation and release is a parameter (`body`, arbitrary; where there are several, `b1`, `b2`): it is given the state with the working memory and tells whether it succeeded.  What it may rely on and what it does is stated with the theorems.
-/

namespace Zm.Life
open Zm

/-- Something that is called: it tells whether it succeeded. -/
abbrev Call := St → Res (Bool × St)

/-- Allocation of working memory `l`, the computation if all of it was got, release of `fs`; `rep` is what is reported without memory. -/
def work (avail : Nat → Bool) (l : List (Fld × Int)) (fs : List Fld) (rep : Bool) (body : Call) (s : St) : Res (Bool × St) :=
  let a := each avail l s
  (if a.1 then body a.2 else .ok (rep, a.2)).bind fun b => (freeAll fs b.2).bind fun s => .ok (b.1, s)

/-! ## Linear equations, zm_le.c, zm_le_lu.c, zm_le_lq.c, zm_le_tridiag.c -/

/-- `zLESolveGauss`, zm_le.c:167-195: without memory the answer is handed back as it was. -/
def gauss (avail : Nat → Bool) (n : Nat) (body : Call) : Call :=
  work avail [(("ga.acp", 0), (n * n : Nat)), (("ga.bcp", 0), n), (("ga.s", 0), n), (("ga.idx", 0), n)] [("ga.acp", 0), ("ga.bcp", 0), ("ga.s", 0), ("ga.idx", 0)] true body

/-- `zLETridiagSolve`, zm_le_tridiag.c:33-49. -/
def tridiag (avail : Nat → Bool) (n : Nat) (body : Call) : Call :=
  work avail [(("td.acp", 0), n), (("td.bcp", 0), n), (("td.dcp", 0), n)] [("td.acp", 0), ("td.bcp", 0), ("td.dcp", 0)] true body

/-- `zMatDecompLU`, zm_le_lu.c:36-63, and `zMatDecompCholesky`, zm_le_lu.c:129-148, of a matrix of `m` and `n`; the outcome is whether the rank is full. -/
def decompLU (avail : Nat → Bool) (m n : Nat) (body : Call) : Call :=
  work avail [(("lu.mc", 0), (m * n : Nat))] [("lu.mc", 0)] false body

/-- `zLESolveLU`, zm_le.c:230-249. -/
def solveLU (avail : Nat → Bool) (n : Nat) (body : Call) : Call :=
  work avail [(("lus.c", 0), n)] [("lus.c", 0)] false body

/-- `zLESolveLU` carried out `k` times with its outcome ignored, zm_le.c:271-280. -/
def refine (avail : Nat → Bool) (n : Nat) (body : Call) : Nat → St → Res (Bool × St)
  | 0, s => .ok (true, s)
  | k + 1, s => (solveLU avail n body s).bind fun a => refine avail n body k a.2

/-- `zLESolveLURI`, zm_le.c:251-290, with `k` solutions by the factors. -/
def luri (avail : Nat → Bool) (n k : Nat) (b1 b2 : Call) : Call :=
  work avail [(("ri.l", 0), (n * n : Nat)), (("ri.u", 0), (n * n : Nat)), (("ri.res", 0), n), (("ri.err", 0), n), (("ri.idx", 0), n)] [("ri.l", 0), ("ri.u", 0), ("ri.res", 0), ("ri.err", 0), ("ri.idx", 0)] true
    fun s => (decompLU avail n n b1 s).bind fun a => if a.1 then refine avail n b2 k a.2 else .ok (false, a.2)

/-- `zMatDecompLQ_Householder`, zm_le_lq.c:98-114, of a matrix of `m` and `n`. -/
def decompLQ (avail : Nat → Bool) (m n : Nat) (body : Call) : Call :=
  work avail [(("lq.ltmp", 0), (m * n : Nat)), (("lq.qtmp", 0), (n * n : Nat))] [("lq.ltmp", 0), ("lq.qtmp", 0)] false body

/-- `zMatDecompLQ_GramSchmidt`, zm_le_lq.c:32-44, called `zMatDecompLQ`, zm_le_lq.h:42. -/
def decompGS (avail : Nat → Bool) (m n : Nat) (body : Call) : Call :=
  work avail [(("gs.mcp", 0), (m * n : Nat))] [("gs.mcp", 0)] false body

/-- `zMatDecompQR`, zm_le_lq.c:164-184, with the triangular factor. -/
def decompQR (avail : Nat → Bool) (m n : Nat) (body : Call) : Call :=
  work avail [(("qr.mcp", 0), (n * m : Nat)), (("qr.qcp", 0), (n * m : Nat)), (("qr.rcp", 0), (n * n : Nat))] [("qr.mcp", 0), ("qr.qcp", 0), ("qr.rcp", 0)] false body

/-! ## Inverse matrices, zm_le_mat_inv.c, zm_le_lyapnov.c -/

/-- `_zMulInvMatMatNC`, zm_le_mat_inv.c:147-168, for `n` unknowns and `k` columns. -/
def mulInv (avail : Nat → Bool) (n k : Nat) (body : Call) : Call :=
  work avail [(("mi.mcp1", 0), (n * n : Nat)), (("mi.mcp2", 0), (n * k : Nat)), (("mi.idx", 0), n), (("mi.s", 0), n)] [("mi.mcp1", 0), ("mi.mcp2", 0), ("mi.idx", 0), ("mi.s", 0)] false body

/-- `zMulMatInvMat`, zm_le_mat_inv.c:184-223. -/
def mulMatInv (avail : Nat → Bool) (n k : Nat) (body : Call) : Call :=
  work avail [(("ii.mcp1", 0), (n * k : Nat)), (("ii.mcp2", 0), (n * n : Nat)), (("ii.mcp", 0), (n * k : Nat)), (("ii.idx", 0), n), (("ii.s", 0), n)] [("ii.mcp1", 0), ("ii.mcp2", 0), ("ii.mcp", 0), ("ii.idx", 0), ("ii.s", 0)] true body

/-- `zMulInvMatMatAndVecNC`, zm_le_mat_inv.c:300-322. -/
def mulInvVec (avail : Nat → Bool) (n k : Nat) (body : Call) : Call :=
  work avail [(("iv.mcp1", 0), (n * n : Nat)), (("iv.mcp2", 0), (n * k : Nat)), (("iv.vcp", 0), n), (("iv.idx", 0), n), (("iv.s", 0), n)] [("iv.mcp1", 0), ("iv.mcp2", 0), ("iv.vcp", 0), ("iv.idx", 0), ("iv.s", 0)] false body

/-- `zMatInv`, zm_le_mat_inv.c:226-244, for more than one row: what the solver reports is ignored. -/
def matInv (avail : Nat → Bool) (n : Nat) (body : Call) (s : St) : Res (Bool × St) :=
  (mulInv avail n n body s).bind fun a => .ok (true, a.2)

/-- `zMatInvHotelling`, zm_le_mat_inv.c:341-395. -/
def hotelling (avail : Nat → Bool) (n : Nat) (body : Call) : Call :=
  work avail [(("ho.im2", 0), (n * n : Nat)), (("ho.tmp", 0), (n * n : Nat))] [("ho.im2", 0), ("ho.tmp", 0)] false body

/-- `zLELyapnovSolve`, zm_le_lyapnov.c:10-55. -/
def lyapunov (avail : Nat → Bool) (n : Nat) (body : Call) : Call :=
  work avail [(("ly.bt", 0), (n * n : Nat)), (("ly.aw", 0), (n * n * (n * n) : Nat)), (("ly.idx", 0), (n * n : Nat)), (("ly.s", 0), (n * n : Nat))] [("ly.bt", 0), ("ly.aw", 0), ("ly.idx", 0), ("ly.s", 0)] false body

/-! ## Eigenvalues and singular values, zm_mat_eig.c -/

/-- `zMatToHessenberg`, zm_mat_eig.c:92-110: without memory the matrix is handed back as it was. -/
def hessenberg (avail : Nat → Bool) (n : Nat) (body : Call) : Call :=
  work avail [(("he.u", 0), n), (("he.v", 0), n), (("he.w", 0), n)] [("he.u", 0), ("he.v", 0), ("he.w", 0)] true body

/-- `zMatEigPower`, zm_mat_eig.c:198-222: without memory the value handed back is one. -/
def eigPower (avail : Nat → Bool) (n : Nat) (body : Call) : Call :=
  work avail [(("ep.err", 0), n), (("ep.ev", 0), n)] [("ep.ev", 0), ("ep.err", 0)] true body

/-- `_zMatEigVecReal`, zm_mat_eig.c:245-276 (the inverse matrix is computed once, since `zMatInv` never reports a failure). -/
def eigVecReal (avail : Nat → Bool) (n : Nat) (b1 b2 : Call) : Call :=
  work avail [(("er.ms", 0), (n * n : Nat)), (("er.b", 0), (n * n : Nat)), (("er.v", 0), n)] [("er.ms", 0), ("er.b", 0), ("er.v", 0)] false
    fun s => (matInv avail n b1 s).bind fun a => eigPower avail n b2 a.2

/-- `_zMatEigVecComplex`, zm_mat_eig.c:279-322. -/
def eigVecComplex (avail : Nat → Bool) (n : Nat) (b1 b2 : Call) : Call :=
  work avail [(("ec.ms", 0), (2 * n * (2 * n) : Nat)), (("ec.b", 0), (2 * n * (2 * n) : Nat)), (("ec.v", 0), (2 * n : Nat))] [("ec.ms", 0), ("ec.b", 0), ("ec.v", 0)] false
    fun s => (matInv avail (2 * n) b1 s).bind fun a => eigPower avail (2 * n) b2 a.2

/-- `zMatEigDQR`, zm_mat_eig.c:147-195. -/
def eigDQR (avail : Nat → Bool) (n : Nat) (b1 b2 : Call) : Call :=
  work avail [(("dq.a", 0), (n * n : Nat))] [("dq.a", 0)] false fun s => (hessenberg avail n b1 s).bind fun a => b2 a.2

/-- The loop of `zMatEig`, zm_mat_eig.c:338-352; `kinds` tells which of the eigenvalues left are pairs. -/
def eigLoop (avail : Nat → Bool) (n : Nat) (b1 b2 c1 c2 : Call) : List Bool → St → Res (Bool × St)
  | [], s => .ok (true, s)
  | k :: ks, s => ((if k then eigVecComplex avail n c1 c2 else eigVecReal avail n b1 b2) s).bind fun a => if a.1 then eigLoop avail n b1 b2 c1 c2 ks a.2 else .ok (true, a.2)

/-- `zMatEig`, zm_mat_eig.c:326-359: a failure in the loop is reported as success. -/
def matEig (avail : Nat → Bool) (n : Nat) (a1 a2 b1 b2 c1 c2 : Call) (kinds : List Bool) : Call :=
  work avail [(("eg.v1", 0), n), (("eg.v2", 0), n)] [("eg.v1", 0), ("eg.v2", 0)] false
    fun s => (eigDQR avail n a1 a2 s).bind fun a => if a.1 then eigLoop avail n b1 b2 c1 c2 kinds a.2 else .ok (false, a.2)

/-- `zMatSymEigJacobi`, zm_mat_eig.c:542-580. -/
def jacobi (avail : Nat → Bool) (n : Nat) (body : Call) : Call :=
  work avail [(("ja.d", 0), (n * n : Nat))] [("ja.d", 0)] false body

/-- `zMatSVD`, zm_mat_eig.c:599-631, of a matrix with `m` rows that has the rank `k`: the second matrix is allocated after the eigenvalues are known. -/
def svd (avail : Nat → Bool) (m k : Nat) (b1 b2 : Call) : Call := fun s =>
  let a := each avail [(("sv.c", 0), (m * m : Nat))] (s.put ("sv.w", 0) .null)
  (if a.1 then
    (jacobi avail m b1 a.2).bind fun b =>
      let c := allocF avail ("sv.w", 0) (m * k : Nat) b.2
      if c.1 then b2 c.2 else .ok (true, c.2)
  else .ok (false, a.2)).bind fun b => (freeAll [("sv.w", 0), ("sv.c", 0)] b.2).bind fun s => .ok (b.1, s)

/-- `zMatSingularValueMax`, zm_mat_eig.c:657-669, of a matrix whose lesser size is `n`. -/
def singMax (avail : Nat → Bool) (n : Nat) (body : Call) : Call :=
  work avail [(("sm.r", 0), (n * n : Nat)), (("sm.e", 0), n)] [("sm.r", 0), ("sm.e", 0)] false (eigPower avail n body)

/-- `zMatEigPowerInv`, zm_mat_eig.c:225-243. -/
def eigPowerInv (avail : Nat → Bool) (n : Nat) (b1 b2 : Call) : Call :=
  work avail [(("pi.inv", 0), (n * n : Nat))] [("pi.inv", 0)] false fun s => (matInv avail n b1 s).bind fun a => eigPower avail n b2 a.2

/-- `zMatSingularValueMin`, zm_mat_eig.c:672-684. -/
def singMin (avail : Nat → Bool) (n : Nat) (b1 b2 : Call) : Call :=
  work avail [(("sm.r", 0), (n * n : Nat)), (("sm.e", 0), n)] [("sm.r", 0), ("sm.e", 0)] false (eigPowerInv avail n b1 b2)

/-- `zMatCondNum`, zm_mat_eig.c:687-701: what could be allocated is kept where the other one could not. -/
def condNum (avail : Nat → Bool) (n : Nat) (b0 b1 b2 : Call) (s : St) : Res (Bool × St) :=
  let a := each avail [(("sm.r", 0), (n * n : Nat)), (("sm.e", 0), n)] s
  if a.1 then
    (eigPower avail n b0 a.2).bind fun b => (eigPowerInv avail n b1 b2 b.2).bind fun c => (freeAll [("sm.r", 0), ("sm.e", 0)] c.2).bind fun s => .ok (c.1, s)
  else .ok (false, a.2)

/-! ## Generalised linear equations, zm_le_gen.c and zm_le_mat_mpinv.c -/

/-- `zLEWorkspaceAlloc`, zm_le_gen.c:28-36: a copy of the right side only where there are equations. -/
def leAllocs (ne nv : Nat) : List (Fld × Int) := [(("m_regular", 0), (nv * nv : Nat)), (("b_copy", 0), ne), (("v_ispace", 0), nv), (("v_scale", 0), nv), (("index_le", 0), nv)]

/-- `zLEWorkspaceFree`, zm_le_gen.c:70-78. -/
def leFields : List Fld := [("m_regular", 0), ("v_scale", 0), ("index_le", 0), ("b_copy", 0), ("v_ispace", 0)]

/-- `zLESolveNormMin`, zm_le_gen.c:173-190 (`ne = nv`, the rows), `zLESolveErrorMin`, zm_le_gen.c:202-218 (`ne` rows, `nv` columns), `zLESolveSRBias`, zm_le_gen.c:419-428, and `zLESolveSRRef`, zm_le_gen.c:469-478. -/
def normMin (avail : Nat → Bool) (ne nv : Nat) (body : Call) : Call := work avail (leAllocs ne nv) leFields false body

/-- `zLESolveRefNormMin`, zm_le_gen.c:233-249, with `_zLEWorkspaceAllocRef`, zm_le_gen.c:80-84, and `_zLEWorkspaceFreeRef`, zm_le_gen.c:87-91. -/
def refNormMin (avail : Nat → Bool) (n : Nat) (body : Call) : Call :=
  work avail ((("v_ref", 0), (n : Int)) :: leAllocs n n) (leFields ++ [("v_ref", 0)]) false body

/-- `_zLEWorkspaceAllocLR`, zm_le_gen.c:108-114. -/
def lrAllocs (ne nv : Nat) : List (Fld × Int) := [(("l_facto", 0), (ne * ne : Nat)), (("r_facto", 0), (ne * nv : Nat)), (("index_lu", 0), ne)]

/-- `_zLEWorkspaceFreeLR`, zm_le_gen.c:117-121. -/
def lrFields : List Fld := [("l_facto", 0), ("r_facto", 0), ("index_lu", 0)]

/-- `_zLEWorkspaceFreeMP`, zm_le_gen.c:101-105. -/
def mpFields : List Fld := leFields ++ [("v_mp_ispace", 0)]

/-- The fields of a workspace, set to null by `zLEWorkspaceInit`, zm_le_gen.c:11-26. -/
def leAll : List Fld := leFields ++ ("v_ref", 0) :: ("v_mp_ispace", 0) :: lrFields

/-- `zLEWorkspaceAllocMP`, zm_le_gen.c:124-136: where an allocation fails everything is released, but the pointers are kept. -/
def allocMP (avail : Nat → Bool) (ne nv : Nat) (s : St) : Res (Bool × St) :=
  let a := each avail (lrAllocs ne nv) (clear leAll s)
  let b := if a.1 then each avail ((("v_mp_ispace", 0), (nv : Int)) :: leAllocs ne nv) a.2 else a
  if b.1 then .ok (true, b.2) else (freeAll (lrFields ++ mpFields) b.2).bind fun s => .ok (false, s)

/-- `zLEWorkspaceFreeMP`, zm_le_gen.c:147-151. -/
def freeMP (s : St) : Res St := freeAll (mpFields ++ lrFields) s

/-- `zLESolveMP_LQ`, zm_le_gen.c:297-312 (also `zLESolveMPNull`, zm_le_gen.c:360-375): the workspace is released whether or not it was allocated. -/
def solveMP (avail : Nat → Bool) (ne nv : Nat) (body : Call) (s : St) : Res (Bool × St) :=
  (allocMP avail ne nv s).bind fun a =>
    (if a.1 then decompGS avail ne nv body a.2 else .ok a).bind fun b => (freeMP b.2).bind fun s => .ok (true, s)

/-- `zLEWorkspaceClone`, zm_le_gen.c:47-67, of a workspace of the fields `has` with their sizes: a failure releases with `zLEWorkspaceFree`. -/
def leClone (avail : Nat → Bool) (has : List (Fld × Int)) (s : St) : Res (Bool × St) :=
  let a := each avail has s
  if a.1 then .ok (true, a.2) else (freeAll leFields a.2).bind fun s => .ok (false, s)

/-- `zMatDecompLQAlloc`, zm_le_lq.c:151-161, for a matrix of `m` and `n`: the factors are released if they could not be allocated. -/
def decompLQAlloc (avail : Nat → Bool) (m n : Nat) (body : Call) (s : St) : Res (Bool × St) :=
  let a := each avail [(("mp.l", 0), (m * m : Nat)), (("mp.q", 0), (m * n : Nat))] s
  if a.1 then decompGS avail m n body a.2 else (freeAll [("mp.l", 0), ("mp.q", 0)] a.2).bind fun s => .ok (false, s)

/-- `_zMatMPInvAllocWork1`, zm_le_mat_mpinv.c:10-19: the factors are released again. -/
def mpWork1 (avail : Nat → Bool) (m n : Nat) (body : Call) (s : St) : Res (Bool × St) :=
  (decompLQAlloc avail m n body s).bind fun a => if a.1 then .ok (true, a.2) else (freeAll [("mp.l", 0), ("mp.q", 0)] a.2).bind fun s => .ok (false, s)

/-- `_zMatMPInvAllocWork2`, zm_le_mat_mpinv.c:22-33, for the rank `k`. -/
def mpWork2 (avail : Nat → Bool) (k row : Nat) (s : St) : Res (Bool × St) :=
  let a := each avail [(("mp.tmp1", 0), (k * row : Nat)), (("mp.tmp2", 0), (k * k : Nat)), (("mp.tmp3", 0), (k * row : Nat))] s
  if a.1 then .ok (true, a.2) else (freeAll [("mp.tmp1", 0), ("mp.tmp2", 0), ("mp.tmp3", 0)] a.2).bind fun s => .ok (false, s)

/-- `zMatMPInv`, zm_le_mat_mpinv.c:36-54 (also `zMatMPInvNull`, zm_le_mat_mpinv.c:57-78, and `zMulMPInvMatMat`, zm_le_mat_mpinv.c:80-98), of a matrix of `m` and `n` that has the rank `k` (for the third one `c` is the columns of the other factor, else `m`). -/
def mpInv (avail : Nat → Bool) (m n k c : Nat) (b1 b2 : Call) (s : St) : Res (Bool × St) :=
  (mpWork1 avail m n b1 s).bind fun a =>
    if a.1 then
      (mpWork2 avail k c a.2).bind fun b =>
        if b.1 then (mulInv avail k c b2 b.2).bind fun c => (freeAll [("mp.l", 0), ("mp.q", 0), ("mp.tmp1", 0), ("mp.tmp2", 0), ("mp.tmp3", 0)] c.2).bind fun s => .ok (true, s)
        else .ok (false, b.2)
    else .ok (false, a.2)

/-- `_zMatMPInvPenrose`, zm_le_mat_mpinv.c:103-131. -/
def penrose (avail : Nat → Bool) (n : Nat) (body : Call) : Call :=
  work avail [(("pe.b", 0), (n * n : Nat)), (("pe.c", 0), (n * n : Nat)), (("pe.c2", 0), (n * n : Nat)), (("pe.cb", 0), (n * n : Nat))] [("pe.b", 0), ("pe.c", 0), ("pe.c2", 0), ("pe.cb", 0)] true body

/-- `zLESolveMP_SVD`, zm_le_gen.c:330-357, of a matrix of `m` and `n` that has the rank `k`. -/
def solveSVD (avail : Nat → Bool) (m n k : Nat) (b1 b2 b3 : Call) : Call :=
  work avail [(("ms.u", 0), (m * m : Nat)), (("ms.v", 0), (m * n : Nat)), (("ms.sv", 0), m), (("ms.tmp", 0), m)] [("ms.u", 0), ("ms.v", 0), ("ms.sv", 0), ("ms.tmp", 0)] true
    fun s => (svd avail m k b1 b2 s).bind fun a => b3 a.2

/-! ## Optimisation, zm_opt_lcp_ip.c, zm_opt_lcp_lemke.c, zm_opt_lp_simplex.c, zm_opt_lp_pdip.c, zm_opt_qp_asm.c, zm_opt_nm.c, zm_opt_pso.c, zm_opt_ga.c -/

/-- `_zLCPIP_PCAlloc`, zm_opt_lcp_ip.c:34-51. -/
def lcpipAllocs (n : Nat) : List (Fld × Int) := [(("lc.g", 0), (n * n : Nat)), (("lc.r", 0), n), (("lc.dz", 0), n), (("lc.dw", 0), n), (("lc.b", 0), n), (("lc.c", 0), n), (("lc.s", 0), n), (("lc.idx", 0), n)]

/-- `_zLCPIP_PCFree`, zm_opt_lcp_ip.c:26-31. -/
def lcpipFields : List Fld := [("lc.g", 0), ("lc.r", 0), ("lc.dz", 0), ("lc.dw", 0), ("lc.b", 0), ("lc.c", 0), ("lc.s", 0), ("lc.idx", 0)]

/-- `zLCPSolveIP`, zm_opt_lcp_ip.c:137-190; `given` tells whether the caller gave a vector for `w`. -/
def lcpip (avail : Nat → Bool) (n : Nat) (given : Bool) (body : Call) : Call :=
  work avail (lcpipAllocs n) lcpipFields false
    (if given then body else work avail [(("lc.w", 0), n)] [("lc.w", 0)] false body)

/-- `zLCPSolveLemke`, zm_opt_lcp_lemke.c:173-198, with `_zLemkeCreate`, zm_opt_lcp_lemke.c:39-61, and `_zLemkeDestroy`, zm_opt_lcp_lemke.c:30-36. -/
def lemke (avail : Nat → Bool) (n : Nat) (body : Call) : Call :=
  work avail [(("le.tab", 0), (n * (2 * n + 1) : Nat)), (("le.p", 0), n), (("le.ib", 0), n), (("le.in", 0), n)] [("le.tab", 0), ("le.p", 0), ("le.ib", 0), ("le.in", 0)] false body

/-- `zLPTableauDestroy`, zm_opt_lp_simplex.c:58-66. -/
def tabFields : List Fld := [("tab.a", 0), ("tab.b", 0), ("tab.c", 0), ("tab.ib", 0), ("tab.in", 0), ("tab.ir", 0)]

/-- `zLPTableauCreate`, zm_opt_lp_simplex.c:26-55, for `m` equations of `n` unknowns: the size of the third vector is read from the matrix even if that could not be allocated. -/
def tabCreate (avail : Nat → Bool) (m n : Nat) (s : St) : Res (Bool × St) :=
  let a := each avail [(("tab.a", 0), (m * (n + m) : Nat)), (("tab.b", 0), m)] s
  if (a.2.p ("tab.a", 0)).isPtr then
    let b := each avail [(("tab.c", 0), (n + m : Nat)), (("tab.ib", 0), m), (("tab.in", 0), n), (("tab.ir", 0), m)] a.2
    .ok (a.1 && b.1, b.2)
  else .ub

/-- `zLPSolveSimplex`, zm_opt_lp_simplex.c:255-290. -/
def simplex (avail : Nat → Bool) (m n : Nat) (body : Call) (s : St) : Res (Bool × St) :=
  (tabCreate avail m n s).bind fun a => (if a.1 then body a.2 else .ok (false, a.2)).bind fun b => (freeAll tabFields b.2).bind fun s => .ok (b.1, s)

/-- `zLPFeasibleBase`, zm_opt_lp_simplex.c:293-314: nothing is released where the tableau could not be created. -/
def feasibleBase (avail : Nat → Bool) (m n : Nat) (body : Call) (s : St) : Res (Bool × St) :=
  (tabCreate avail m n s).bind fun a => if a.1 then (body a.2).bind fun b => (freeAll tabFields b.2).bind fun s => .ok (b.1, s) else .ok (false, a.2)

/-- `_zLP_PDIPAlloc`, zm_opt_lp_pdip.c:36-64, for `m` equations of `n` unknowns. -/
def pdipAllocs (m n : Nat) : List (Fld × Int) :=
  [(("pd.idx", 0), m), (("pd.l", 0), (m * m : Nat)), (("pd.u", 0), (m * m : Nat)), (("pd.axza", 0), (m * m : Nat)), (("pd.y", 0), m), (("pd.z", 0), n), (("pd.xz", 0), n), (("pd.v1", 0), m), (("pd.v2", 0), n), (("pd.v3", 0), n), (("pd.tmp", 0), m)]

/-- `_zLP_PDIPFree`, zm_opt_lp_pdip.c:24-33. -/
def pdipFields : List Fld := [("pd.idx", 0), ("pd.l", 0), ("pd.u", 0), ("pd.axza", 0), ("pd.y", 0), ("pd.z", 0), ("pd.xz", 0), ("pd.tmp", 0), ("pd.v1", 0), ("pd.v2", 0), ("pd.v3", 0)]

/-- `_zLP_PDIP_PCAlloc`, zm_opt_lp_pdip.c:147-161. -/
def pcAllocs (m n : Nat) : List (Fld × Int) := [(("pc.dx", 0), n), (("pc.dy", 0), m), (("pc.dz", 0), n), (("pc.dx2", 0), n), (("pc.dy2", 0), m), (("pc.dz2", 0), n)]

/-- `_zLP_PDIP_PCFree`, zm_opt_lp_pdip.c:141-144. -/
def pcFields : List Fld := [("pc.dx", 0), ("pc.dy", 0), ("pc.dz", 0), ("pc.dx2", 0), ("pc.dy2", 0), ("pc.dz2", 0)]

/-- `zLPSolvePDIP_PC`, zm_opt_lp_pdip.c:224-271: what could not be allocated was released by the allocators and is released again. -/
def pdip (avail : Nat → Bool) (m n : Nat) (body : Call) (s : St) : Res (Bool × St) :=
  let a := each avail (pdipAllocs m n) s
  if a.1 then
    let b := each avail (pcAllocs m n) a.2
    (if b.1 then body b.2 else (freeAll pcFields b.2).bind fun s => .ok (false, s)).bind fun c =>
      (freeAll pcFields c.2).bind fun s => (freeAll pdipFields s).bind fun s => .ok (c.1, s)
  else (freeAll pdipFields a.2).bind fun s => (freeAll pdipFields s).bind fun s => .ok (false, s)

/-- `_zQPASMCheck`, zm_opt_qp_asm.c:212-233, for `n` unknowns, with `zMatDecompCholeskyAlloc`, zm_le_lu.c:162-172. -/
def qpCheck (avail : Nat → Bool) (n : Nat) (body : Call) (s : St) : Res (Bool × St) :=
  let a := each avail [(("qc.l", 0), (n * n : Nat)), (("qc.ic", 0), n)] s
  (if a.1 then decompLU avail n n body a.2 else (freeAll [("qc.l", 0), ("qc.ic", 0)] a.2).bind fun s => .ok (false, s)).bind fun b =>
    (freeAll [("qc.l", 0), ("qc.ic", 0)] b.2).bind fun s => .ok (b.1, s)

/-- `_zQPASMInit`, zm_opt_qp_asm.c:26-52, for `m` constraints on `n` unknowns. -/
def asmAllocs (m n : Nat) : List (Fld × Int) :=
  [(("as.qinv", 0), (n * n : Nat)), (("as.aqinvat", 0), (m * m : Nat)), (("as.qinvc", 0), n), (("as.aqinvc", 0), m), (("as.xtmp", 0), n), (("as.ia", 0), m), (("as.in", 0), m), (("as.m", 0), (m * m : Nat)), (("as.v", 0), m), (("as.lambda", 0), m), (("as.idx", 0), m), (("as.s", 0), m)]

/-- `_zQPASMDestroy`, zm_opt_qp_asm.c:55-69. -/
def asmFields : List Fld := [("as.qinv", 0), ("as.aqinvat", 0), ("as.qinvc", 0), ("as.aqinvc", 0), ("as.xtmp", 0), ("as.ia", 0), ("as.in", 0), ("as.m", 0), ("as.v", 0), ("as.lambda", 0), ("as.idx", 0), ("as.s", 0)]

/-- `_zQPASMInitBase`, zm_opt_qp_asm.c:72-138: the size of the third vector is read from the matrix even if that could not be allocated. -/
def asmBase (avail : Nat → Bool) (m n : Nat) (body : Call) (s : St) : Res (Bool × St) :=
  let a := each avail [(("tab.a", 0), (m * (2 * (n + m)) : Nat)), (("tab.b", 0), m)] s
  if (a.2.p ("tab.a", 0)).isPtr then
    let b := each avail [(("tab.c", 0), (2 * (n + m) : Nat)), (("tab.ib", 0), m), (("tab.in", 0), (2 * (n + m) - m : Nat)), (("tab.ir", 0), m)] a.2
    (if a.1 && b.1 then body b.2 else .ok (false, b.2)).bind fun c => (freeAll tabFields c.2).bind fun s => .ok (c.1, s)
  else .ub

/-- `zQPSolveASM`, zm_opt_qp_asm.c:236-254. -/
def asm (avail : Nat → Bool) (m n : Nat) (b0 b1 b2 b3 : Call) (s : St) : Res (Bool × St) :=
  (qpCheck avail n b0 s).bind fun a =>
    if a.1 then
      work avail (asmAllocs m n) asmFields false (fun s => (matInv avail n b1 s).bind fun b => (asmBase avail m n b2 b.2).bind fun c => if c.1 then b3 c.2 else .ok (false, c.2)) a.2
    else .ok (false, a.2)

/-- `_zOptNMCreate`, zm_opt_nm.c:19-41, in `dim` dimensions: nothing is released on failure. -/
def nmCreate (avail : Nat → Bool) (dim : Nat) (s : St) : Bool × St :=
  let a := chain avail [(("nm.eval", 0), (dim + 1 : Nat)), (("nm.pin", 0), dim), (("nm.test", 0), dim), (("nm.index", 0), (dim + 1 : Nat)), (("nm.e.buf", 0), (dim + 1 : Nat))] s
  if a.1 then each avail ((elems "nm.e" (dim + 1)).map fun f => (f, (dim : Int))) (clear (elems "nm.e" (dim + 1)) a.2) else a

/-- `_zOptNMDestroy`, zm_opt_nm.c:44-55. -/
def nmDestroy (dim : Nat) (s : St) : Res St :=
  (freeAll (elems "nm.e" (dim + 1)) s).bind (freeAll [("nm.e.buf", 0), ("nm.eval", 0), ("nm.pin", 0), ("nm.test", 0), ("nm.index", 0)])

/-- `zOptSolveNM`, zm_opt_nm.c:192-207. -/
def nm (avail : Nat → Bool) (dim : Nat) (body : Call) (s : St) : Res (Bool × St) :=
  let a := nmCreate avail dim s
  if a.1 then (body a.2).bind fun b => (nmDestroy dim b.2).bind fun s => .ok (b.1, s) else .ok (false, a.2)

/-- The vectors of the `i`-th particle. -/
def particle (i : Nat) : List Fld := [("ps.x", i), ("ps.v", i), ("ps.mybest", i), ("ps.dmybest", i), ("ps.dbest", i)]

/-- The vectors of the first `num` particles. -/
def particles (num : Nat) : List Fld := (List.range num).flatMap particle

/-- `_zOptPSOSwarmDestroy`, zm_opt_pso.c:109-116. -/
def psoDestroy (num : Nat) (s : St) : Res St := (freeAll (particles num) s).bind (freeF ("ps.buf", 0))

/-- The loop of `_zOptPSOSwarmCreate`, zm_opt_pso.c:125-130, with `_zOptPSOParticleCreate`, zm_opt_pso.c:29-46, from the particle `i` on: a particle that could not be created is released, and then released once more with the swarm. -/
def psoLoop (avail : Nat → Bool) (num : Nat) (dim : Nat) : List Nat → St → Res (Bool × St)
  | [], s => .ok (true, s)
  | i :: is, s =>
    let a := each avail ((particle i).map fun f => (f, (dim : Int))) s
    if a.1 then psoLoop avail num dim is a.2
    else (freeAll (particle i) a.2).bind fun s => (psoDestroy num s).bind fun s => .ok (false, s)

/-- `_zOptPSOSwarmCreate`, zm_opt_pso.c:119-135: the array of particles is cleared by `zAlloc`. -/
def psoCreate (avail : Nat → Bool) (num dim : Nat) (s : St) : Res (Bool × St) :=
  let a := allocF avail ("ps.buf", 0) num s
  if a.1 then psoLoop avail num dim (List.range num) (clear (particles num) a.2) else .ok (false, a.2)

/-- `zOptSolvePSO`, zm_opt_pso.c:164-192, with `num` particles in `dim` dimensions: where the swarm cannot be created the limits of the velocity are kept. -/
def pso (avail : Nat → Bool) (num dim : Nat) (body : Call) (s : St) : Res (Bool × St) :=
  let a := each avail [(("ps.vmin", 0), dim), (("ps.vmax", 0), dim)] s
  if a.1 then
    (psoCreate avail num dim a.2).bind fun b =>
      if b.1 then (body b.2).bind fun c => (psoDestroy num c.2).bind fun s => (freeAll [("ps.vmin", 0), ("ps.vmax", 0)] s).bind fun s => .ok (true, s)
      else .ok (false, b.2)
  else (freeAll [("ps.vmin", 0), ("ps.vmax", 0)] a.2).bind fun s => .ok (false, s)

/-- `zOptGADestroy`, zm_opt_ga.c:121-131, for the population `num` noted in the structure. -/
def gaDestroy (num : Nat) (s : St) : Res St := (freeAll (elems "ga.gene" num) s).bind (freeAll [("ga.buf", 0), ("ga.min", 0), ("ga.max", 0)])

/-- `zOptGACreate`, zm_opt_ga.c:77-113: the population is noted only after all genes were allocated. -/
def gaCreate (avail : Nat → Bool) (num dim : Nat) (s : St) : Res (Bool × St) :=
  let a := allocF avail ("ga.buf", 0) num (clear [("ga.buf", 0), ("ga.min", 0), ("ga.max", 0)] s)
  if a.1 then
    let b := chain avail ((elems "ga.gene" num).map fun f => (f, (dim : Int))) (clear (elems "ga.gene" num) a.2)
    if b.1 then
      let c := each avail [(("ga.min", 0), dim), (("ga.max", 0), dim)] b.2
      if c.1 then .ok (true, c.2) else (gaDestroy num c.2).bind fun s => .ok (false, s)
    else (gaDestroy 0 b.2).bind fun s => .ok (false, s)
  else .ok (false, a.2)

/-! ## Interpolation and neural gas, zm_ip*.c, zm_gng.c, zm_nurbs.c -/

/-- `zIPDataFree`, zm_ip.c:43-48. -/
def ipFree (num : Nat) (s : St) : Res St := (freeF ("ip.knot", 0) s).bind (ringFree "ip.va" num)

/-- `zIPDataAlloc`, zm_ip.c:15-40, for a sequence of `num` points, not empty, of dimension `dim`; where the array of vectors fails, its allocator has released it and left it empty. -/
def ipAlloc (avail : Nat → Bool) (dim num : Nat) (s : St) : Res (Bool × St) :=
  let a := allocF avail ("ip.knot", 0) num s
  if a.1 then (ringAlloc avail "ip.va" dim num a.2).bind fun b => if b.1 then .ok (true, b.2) else (freeF ("ip.knot", 0) b.2).bind fun s => .ok (false, s)
  else .ok (false, a.2)

/-- `zIPCreateSpline`, zm_ip_spline.c:169-227; the computation fails where a type of edge is not valid. On failure the data are kept. -/
def ipSpline (avail : Nat → Bool) (dim num : Nat) (body : Call) (s : St) : Res (Bool × St) :=
  (ipAlloc avail dim num s).bind fun a =>
    if a.1 then work avail [(("sp.a", 0), num), (("sp.b", 0), num), (("sp.c", 0), num), (("sp.d", 0), num), (("sp.v", 0), num)] [("sp.a", 0), ("sp.b", 0), ("sp.c", 0), ("sp.d", 0), ("sp.v", 0)] false body a.2
    else .ok a

/-- `_zIPSecAccAkima`, zm_ip_akima.c:64-101, at a knot that exists (`inside`) or one that does not: there the vectors are kept. -/
def akimaAcc (avail : Nat → Bool) (dim : Nat) (inside : Bool) (body : Call) (s : St) : Res (Bool × St) :=
  let a := each avail [(("ak.a1", 0), dim), (("ak.a2", 0), dim)] s
  if a.1 ∧ inside = false then body a.2
  else (if a.1 then body a.2 else .ok (false, a.2)).bind fun b => (freeAll [("ak.a1", 0), ("ak.a2", 0)] b.2).bind fun s => .ok (b.1, s)

/-- `zGNGInit`, zm_gng.c:143-184, with `_zGNGUnitAlloc`, zm_gng.c:21-33, and `_zGNGConnect`, zm_gng.c:103-126: a unit is the cell and its vector. -/
def gngUnit (avail : Nat → Bool) (dim : Nat) (i : Nat) (s : St) : Res (Bool × St) :=
  let a := allocF avail ("gn.unit", i) 1 s
  if a.1 then
    let b := allocF avail ("gn.v", i) dim a.2
    if b.1 then .ok (true, b.2) else (freeF ("gn.unit", i) b.2).bind fun s => .ok (false, s.put ("gn.unit", i) .null)
  else .ok (false, a.2)

/-- `_zGNGUnitDestroy`, zm_gng.c:35-44, of a unit without edges; a null pointer is looked into. -/
def gngUnitDestroy (i : Nat) (s : St) : Res St :=
  if (s.p ("gn.unit", i)).isPtr then freeAll [("gn.v", i), ("gn.unit", i)] s else .ub

/-- `zGNGInit`, zm_gng.c:143-184. -/
def gngInit (avail : Nat → Bool) (dim : Nat) (s : St) : Res (Bool × St) :=
  let a := each avail [(("gn._v", 0), dim), (("gn._vm", 0), dim)] s
  if a.1 then
    (gngUnit avail dim 1 a.2).bind fun b =>
      if b.1 then
        (gngUnit avail dim 2 b.2).bind fun c =>
          if c.1 then
            let d := each avail [(("gn.ec", 0), 1), (("gn.ep", 1), 1), (("gn.ep", 2), 1)] c.2
            if d.1 then .ok (true, d.2)
            else
              (freeAll [("gn.ec", 0), ("gn.ep", 1), ("gn.ep", 2)] d.2).bind fun s => (gngUnitDestroy 2 s).bind fun s => (gngUnitDestroy 1 s).bind fun s =>
                (freeAll [("gn._v", 0), ("gn._vm", 0)] s).bind fun s => .ok (false, s)
          else (gngUnitDestroy 2 c.2).bind fun s => (gngUnitDestroy 1 s).bind fun s => (freeAll [("gn._v", 0), ("gn._vm", 0)] s).bind fun s => .ok (false, s)
      else (gngUnitDestroy 1 b.2).bind fun s => (freeAll [("gn._v", 0), ("gn._vm", 0)] s).bind fun s => .ok (false, s)
  else (freeAll [("gn._v", 0), ("gn._vm", 0)] a.2).bind fun s => .ok (false, s)

/-- `zGNGDestroy`, zm_gng.c:187-196, of a network as it was initialised: the edge with the units that have no other edge; the two working vectors are kept. -/
def gngDestroy (s : St) : Res St :=
  freeAll [("gn.ep", 1), ("gn.v", 1), ("gn.unit", 1), ("gn.ep", 2), ("gn.v", 2), ("gn.unit", 2), ("gn.ec", 0)] s

/-- `zBSplineParamAlloc`, zm_nurbs.c:12-19, and the loop of `zNURBSCreate`, zm_nurbs.c:150-181, for `num` points of dimension `dim` (more than the order): on failure everything is released. -/
def nurbsDestroy (num : Nat) (s : St) : Res St := (freeF ("nu.knot", 0) s).bind fun s => (freeAll (elems "nu.cp" num) s).bind (freeF ("nu.buf", 0))

/-- `zNURBSCreate`, zm_nurbs.c:150-181. -/
def nurbsCreate (avail : Nat → Bool) (order dim num : Nat) (s : St) : Res (Bool × St) :=
  let a := allocF avail ("nu.knot", 0) (num + order + 1 : Nat) s
  if a.1 then
    let b := allocF avail ("nu.buf", 0) num a.2
    if b.1 then
      let c := each avail ((elems "nu.cp" num).map fun f => (f, (dim : Int))) (clear (elems "nu.cp" num) b.2)
      if c.1 then .ok (true, c.2) else (nurbsDestroy num c.2).bind fun s => .ok (false, s)
    else (nurbsDestroy 0 b.2).bind fun s => .ok (false, s)
  else .ok (false, a.2)

/-- `zNURBSClone`, zm_nurbs.c:194-210, of a curve of `num` points, not none: on failure nothing is released. -/
def nurbsClone (avail : Nat → Bool) (order dim num : Nat) (s : St) : Res (Bool × St) :=
  .ok (let a := chain avail [(("nu.knot", 0), (num + order + 1 : Nat)), (("nu.buf", 0), num)] s
    if a.1 then chain avail ((elems "nu.cp" num).map fun f => (f, (dim : Int))) (clear (elems "nu.cp" num) a.2) else a)

/-! ## Gaussian mixtures, zm_mva_gmm.c -/

/-- The fields of the `i`-th unit. -/
def unitFields (i : Nat) : List Fld := [("gm.core", i), ("gm.cov", i), ("gm.inv", i), ("gm.ci", i)]

/-- `zGMMUnitAlloc`, zm_mva_gmm.c:45-51, with `_zGMMUnitCoreAlloc`, zm_mva_gmm.c:26-30, and `_zGMMUnitErrorAlloc`, zm_mva_gmm.c:33-42, of a unit whose fields are null. -/
def unitAlloc (avail : Nat → Bool) (core error : Nat) (i : Nat) (s : St) : Bool × St :=
  let a := allocF avail ("gm.core", i) core s
  if a.1 then each avail [(("gm.cov", i), (error * error : Nat)), (("gm.inv", i), (error * error : Nat)), (("gm.ci", i), error)] a.2 else a

/-- The units and their cells in the list, as `zGMMDestroy`, zm_mva_gmm.c:196-206, releases them (without the method). -/
def gmmDestroy (k : Nat) (s : St) : Res St := freeAll ((List.range k).flatMap fun i => unitFields i ++ [("gm.cell", i)]) s

/-- The loop of `zGMMInit`, zm_mva_gmm.c:136-149, from the `i`-th unit on: a unit that could not be allocated is dropped with what was allocated for it. -/
def gmmLoop (avail : Nat → Bool) (size : Nat) : Nat → Nat → St → Res (Bool × St)
  | _, 0, s => .ok (true, s)
  | i, k + 1, s =>
    let a := allocF avail ("gm.cell", i) 1 s
    if a.1 then
      let b := unitAlloc avail size size i (clear (unitFields i) a.2)
      if b.1 then gmmLoop avail size (i + 1) k b.2
      else (freeF ("gm.cell", i) b.2).bind fun s => (gmmDestroy i s).bind fun s => .ok (false, s)
    else (gmmDestroy i a.2).bind fun s => .ok (false, s)

/-- `zGMMInit`, zm_mva_gmm.c:130-160, with `k` units of dimension `size`, without the method (C198). -/
def gmmInit (avail : Nat → Bool) (size k : Nat) (s : St) : Res (Bool × St) := gmmLoop avail size 0 k s

end Zm.Life
