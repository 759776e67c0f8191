# Formal model of epfl-lts2/pygsp in Lean 4

## Layout
* `lean/Verif/Model/*.lean`  - the model: one definition per function of /repo, each citing file and lines.
* `lean/Verif/Spec/*.lean`   - small, model-independent vocabulary used in the theorem statements (reachability, edge set, Dirichlet form ...).
* `lean/Verif/Lemmas/*.lean` - helper lemmas.
* `lean/Verif/Props/*.lean`  - the property theorems (named `Cxx_...`) with non-vacuity `example`s beside them.
* `tools/props_core.py`, `tools/gen.py` - the source of `properties.jsonl`, `MANIFEST.json` and the table below.
* `seeded/LOG.jsonl` - wrong programs tried against the theorems.

## Modelling decisions
* **Numbers**: exact. Floats are modelled by real numbers (or by an arbitrary ordered field for the combinatorial
  parts, so that concrete rational cases can be computed). Rounding is modelled in six modules only, `Rounding`
  (`cheby_op`, `dw`, `compute_laplacian`, `symmetrize` with a rounding after each operation; C142), `RoundedNormalized` (the
  normalized Laplacian; C145), `RoundedEnergy` (`dirichlet_energy`, `grad`, `div`; C148), `RoundedCoeffs`
  (`compute_cheby_coeff`; C149), `RoundedDistances` (`distanz`; C150) and `RoundedFourier`
  (`gft`, `igft`, exact filtering, with sums in any order; C143); elsewhere it is not, and overflow and underflow are modelled nowhere. NaN and the
  infinities are modelled where the code looks at them (`PyNum`): the constructor's check and Python's `min` with NaN.
* **Exceptions** are values of `PyErr`; a function that may raise returns `Except PyErr a`. For stateful methods the
  state reached when the exception is raised is kept (attributes assigned before the `raise` stay assigned).
* **scipy.sparse** matrices are lists of stored entries `(i, j, v)`; the dense value is the sum of the entries stored at
  a position; `nnz` is the length, `eliminate_zeros` filters, `data` are the stored values.
* **numpy arrays** whose shapes matter are `NDArr` (shape + index function) with numpy's axis manipulations.
* **External solvers** (eigh, svd, pinv, spsolve, cg, ARPACK, KD-tree, random generators, set iteration order) are
  parameters; what is assumed about them is an explicit hypothesis, shown satisfiable.

## Trusted base
* **Lean's kernel** (Lean 4.33.0). No axiom is declared in this project, no compiled code is trusted.
* **Axioms**: `AXIOMS.md` lists, for every theorem of the manifest, the axioms it depends on, as printed by Lean; they are
  at most `propext`, `Classical.choice` and `Quot.sound`. (`tools/axioms.py` regenerates the list.)
* **Mathlib's definitions** (real numbers, matrices, cos, exp, ...), which occur in the statements.
* **The reading of the Python code**: nothing is extracted mechanically, the citation in each definition is the only tie.
* **Semantics attributed to numpy / scipy / Python builtins**, as documented in the comments of the model.
* **Hypotheses on external solvers** (specifications of eigh, eigsh, svd, cg, spsolve, pinv, KD-tree search, quad,
  generators of random numbers): explicit in the statements, satisfiability shown beside the theorems.
  Most theorems ask little of the partial eigensolver (`Sound`: orthonormal eigenvectors, one of them of smallest eigenvalue); C133 alone asks for the
  eigenvalues of smallest magnitude (`ExactSM`). The theorems on learning take an exact conjugate gradient (`ExactCG`), except C146, which models
  scipy's loop with its tolerance.

### Which code is modelled
| python file (pygsp/) | Lean modules (Verif/Model) | not modelled |
|---|---|---|
| graphs/graph.py | Graph, GraphState, Sharing, Subgraph, Laplacian, Rounding, RoundedNormalized, RoundedEnergy (`dirichlet_energy`), Plot, Repr, Features (`plot_spectrogram`) | the formatting of attribute values in `__repr__`, loggers |
| graphs/fourier.py | Fourier, GraphState, RoundedFourier | the eigensolvers (parameters; their rounding errors are hypotheses in C143 and C144) |
| graphs/difference.py | Laplacian, GraphState, RoundedEnergy | - |
| graphs/_io.py | Signals, IO | the networkx / graph-tool libraries themselves and the text formats of `save` / `load` (parameters of the model); import helpers |
| graphs/_layout.py | Layout | - |
| graphs/path, ring, grid2d, torus, comet, star, fullconnected | Generators, Drawings, Classes (`_get_extra_repr`) | - |
| graphs/linegraph, stochasticblockmodel, erdosrenyi, barabasialbert, randomregular, lowstretchtree, randomring, community | LineGraph, BlockModel, Barabasi, RandomRegular, LowStretch, RandomRing, Community, Classes (`_get_extra_repr` of StochasticBlockModel) | the other `_get_extra_repr`; the random generator is a parameter |
| graphs/swissroll, davidsensornet; nngraphs/sensor, sphere, cube, twomoons | PointClouds | data files of DavidSensorNet (N = 64, 500) and of the standard TwoMoons |
| graphs/nngraphs/nngraph.py, imgpatches.py, grid2dimgpatches.py | NNGraph, NNSearch, ImgPatches | the searches themselves (scipy, scikit-learn, pyflann: parameters with specifications) |
| graphs/airfoil, minnesota, nngraphs/bunny | Drawings | the data files (parameters of the model) |
| graphs/logo | - | passes the matrix of a data file to `Graph` unchanged |
| filters/filter.py | Filter, RoundedFourier, LiveFilter, PlotFilter, Array, Repr | the formatting of attribute values in `__repr__` |
| filters/approximations.py | Filter, Approx, Lanczos, Rounding, RoundedCoeffs, Calls | the helper `_sum_ind` of `lanczos_op`, which always raises AttributeError (it reads `f.g`) |
| filters/*.py (designs) | Designs, LiveFilter | `_get_extra_repr` (a parameter of `__repr__`) |
| learning.py | Learning, ConjGrad (the loop of scipy's `cg`), Fista (the loop of pyunlocbox's `solve` with its acceleration and stopping rule) | the other keyword arguments of `solve` |
| reduction.py | Reduction, Sparsify, Multires, Calls | the code of `tree_multiresolution` and `_tree_depths` behind the call `Graph(A=A)`, which always raises TypeError; `_pyramid_single_interpolation`, whose only call passes too few arguments (TypeError, in the model of `pyramid_synthesis`) |
| features.py | Features | - |
| optimization.py | Calls | the local functions of `prox_tv`, which are never called: it always raises NameError (the name `verbose` is not defined) |
| plotting.py | Plot, PlotFilter, Windows, Features (`_plot_spectrogram`) | the drawing libraries, titles, import helpers |
| utils.py | Utils, Distances, RoundedDistances (`distanz`), Designs (compute_log_scales) | loggers, `loadmat` |

## Properties
<!-- TABLE -->
| id | property | how it is modelled and proved | status |
|---|---|---|---|
| C01 | Graph(adjacency) accepts exactly the finite square matrices | PyNum (IEEE class arithmetic), sparse storage model; induction over the stored entries | proved |
| C02 | n_edges counts each edge once, whatever the storage | cardinality of finsets vs. length of stored entries; involution argument for symmetric matrices | proved |
| C03 | is_directed() iff the weight matrix is not symmetric | W != W.T has a stored entry iff some difference is non-zero | proved |
| C04 | get_edge_list lists every edge exactly once | bijection between stored entries and the finset of edges | proved |
| C05 | is_connected() decides (strong) connectivity and terminates | loop invariant of the traversal with an arbitrary chooser; reachability closure | proved |
| C06 | has_loops / is_weighted | storage model | proved |
| C07 | Degrees | matrix sums over the storage model | proved |
| C08 | subgraph is the induced subgraph | fancy indexing of the stored entries | proved |
| C09 | extract_components partitions an undirected graph | loop invariants; with negative weights (A = W > 0) it disagrees with is_connected: concrete witness | proved |
| C10 | Combinatorial Laplacian | matrix algebra | proved |
| C11 | The Laplacian is a positive semi-definite quadratic form | sum manipulation | proved |
| C12 | Normalized Laplacian | edge-wise Cauchy inequality | proved |
| C13 | L = D D' for the differential operator | sum over edge list; uses the edge-list theorem | proved |
| C14 | grad, div and dirichlet_energy are mutually consistent | corollaries of L = D D' | proved |
| C15 | estimate_lmax('bounds') is a true upper bound | max-principle proofs for the four bounds (n*max w, 2 max d, Anderson-Morley, Merris) | proved |
| C16 | Signals are length-checked | error-branch model | proved |
| C17 | The weight matrix is immutable | invariant by induction over operation lists | proved |
| C18 | Cached attributes never go stale | inductive invariant of a state machine | proved |
| C19 | G.lmax is a number until the Laplacian type is changed | inductive invariant relating _lmax and _lmax_method; universal counterexample theorem for type changes | proved |
| C20 | compute_fourier_basis() makes lmax exact, unless a basis is cached | state machine; witness for fourier -> estimate -> fourier | proved |
| C21 | What a failing call leaves behind | error branches return the state reached; universal theorems for the non-atomic calls | proved |
| C22 | Laplacian of a directed graph ignores orientation | symmetrization algebra | proved |
| C23 | Relabelling equivariance | reindexing lemmas | proved |
| C24 | gft / igft are mutually inverse and preserve energy | orthonormality of U supplied by the eigensolver's specification | proved |
| C25 | compute_fourier_basis on non-negative weights | PSD of L | proved |
| C26 | Coherence | unit columns | proved |
| C27 | Zero eigenvalue counts components | quadratic form + reachability + eigen-expansion | proved |
| C28 | Exact filtering applies g(L) | n-d array model of the shape manipulations; filter = shape analysis, one matrix per filter, squeeze; eigendecomposition argument | proved |
| C29 | synthesize is the adjoint of analyze | the matrix of every filter is symmetric, for both methods | proved |
| C30 | Frame bounds | Parseval in the Fourier basis | proved |
| C31 | Tight frames reconstruct | composition of the spectral operators | proved |
| C32 | complement makes the frame tight | pointwise algebra, the complement kernel looks at the whole array | proved |
| C33 | inverse reconstructs | pseudo-inverse per frequency (the four Penrose conditions are proved) | proved |
| C34 | localize and compute_frame | transpose/reshape index arithmetic | proved |
| C35 | cheby_op evaluates the Chebyshev expansion | loop invariant relating the recurrence to Mathlib's Chebyshev polynomials | proved |
| C36 | Chebyshev filtering interpolates, and is exact on polynomials | discrete orthogonality of cosines (Dirichlet kernel), uniqueness of interpolation | proved |
| C37 | Chebyshev filters are K-hop local | support of powers of the Laplacian by induction | proved |
| C38 | Filtering is linear and column-wise | matrix action on parsed signals | proved |
| C39 | Filter-bank algebra | list algebra | proved |
| C40 | Filter argument validation | case analysis of the shape parser | proved |
| C41 | Held, Papadakis, Regular and Simoncelli banks are Parseval | real analysis per branch | proved |
| C42 | Meyer is tight on [0, lmax] | telescoping windows | proved |
| C43 | SimpleTight is tight on [0, lmax] | telescoping windows | proved |
| C44 | HalfCosine is tight on [0, lmax] | trigonometric sum | proved |
| C45 | Itersine is tight on [0, lmax] | sin^2+cos^2 | proved |
| C46 | Heat filter | exp algebra | proved |
| C47 | Wave filter | cos/arccos | proved |
| C48 | Expwin | exp algebra | proved |
| C49 | Rectangular | booleans | proved |
| C50 | MexicanHat and Abspline | real analysis | proved |
| C51 | Gabor and Modulation | matrix algebra | proved |
| C53 | symmetrize | matrix algebra; tril/triu on negative weights: witness | proved |
| C54 | distanz is the Euclidean distance between columns | Model/Distances: the code's expansion; square completed, Minkowski for the triangle inequality | proved |
| C55 | resistance_distance is the effective resistance | Moore-Penrose specification of pinv; maximum principle on combinatorial Laplacians | proved |
| C56 | rescale_center | algebra | proved |
| C57 | compute_log_scales | exp/log algebra | proved |
| C58 | regression_tikhonov with tau = 0 interpolates harmonically | exact spsolve; Dirichlet form positive definite on the unmeasured vertices; maximum principle | proved |
| C59 | regression_tikhonov with tau > 0 minimises the penalised objective | conjugate gradient as an exact solver of consistent PSD systems (consistency proved); completing the square | proved |
| C60 | classification_tikhonov logits | linearity, uniqueness and maximum principle per class | proved |
| C61 | classification_tikhonov_simplex: projection, gradient and step | bisection invariant, KKT conditions, three-point inequality, induction over iterations; pyunlocbox itself is external | proved |
| C62 | Kron reduction keeps energies, resistances and connectivity | Schur complement as a relation between potentials and currents; maximum principle for the signs; the symmetrisation and the self-loop branch are shown not to change anything | proved |
| C63 | interpolate reproduces the samples with the smallest energy | Schur complement of L + eps I, Green kernel as its inverse; explicit Chebyshev interpolant of 1/(eps+x) | proved |
| C64 | Laplacian pyramid reconstructs perfectly | induction over the levels; interpolation is deterministic in the state left by the analysis; exact interpolants at an eigenvector for the default orders | proved |
| C65 | graph_multiresolution: every level is a smaller, electrically equivalent graph | loop modelled with the Node bookkeeping; induction over the levels with the Schur complement invariants of C62; concrete counterexamples for the violations | proved |
| C66 | graph_sparsify: an unbiased spectral sparsifier | the random generator is an arbitrary list of draws; Foster's theorem by the trace of the pseudo-inverse; expectation as a finite sum over all draws | proved |
| C67 | Path(N) is the path | explicit COO list, sum of duplicates, bijection for the number of edges | proved |
| C68 | Ring(N, k) connects every vertex to its k nearest neighbours on each side | counting over the COO list, case analysis of the modulus | proved |
| C69 | Torus(Nv, Mv) is the Cartesian product of two cycles | division with remainder, sums of indicators over the COO lists | proved |
| C70 | Grid2d(N1, N2, diagonal) is the grid | division with remainder on every diagonal, symmetrize as a maximum, product of sums for the number of edges | proved |
| C71 | Comet(N, k) and Star(N) | explicit COO list; parent bijection for the edges; injectivity of cosine and sine on a turn | proved |
| C72 | FullConnected(N) is the complete graph | dense matrix; handshake lemma | proved |
| C73 | LineGraph(G) is the line graph of G | incidence matrix algebra on the modelled differential operator; counting pairs of edges at each vertex | proved |
| C74 | StochasticBlockModel and ErdosRenyi sample each pair once with the right probability | random numbers as an arbitrary sequence; induction on the enumeration of the pairs and on the tries | proved |
| C75 | BarabasiAlbert grows by preferential attachment | loop invariant on the matrix under construction, generator as an oracle | proved |
| C76 | RandomRegular returns a simple k-regular graph or an empty one | loop invariant (degree + open half-edges = k) over a fuelled loop; explicit non-terminating run | proved |
| C77 | LowStretchTree is a spanning tree of the grid up to directions and self-loops | induction on k with the arithmetic of 4^p = 3t+1 | proved |
| C78 | Community: blocks of labels, exact numbers of edges inside and between the communities | Model/Community.lean; the labels are shown to be blocks, the pairs inside and between them to be different unordered pairs, and the edges are counted; the rejection sampling is a loop with fuel. | proved |
| C79 | NNGraph connects every point to its k nearest neighbours (or to the points within epsilon) with weight exp(−d²/σ) | Model/NNGraph.lean models centring, rescaling, the kd-tree as an oracle with its documented specification, the exponential weights, the COO→CSR conversion and the symmetrization of utils; the theorems expand them pointwise. | proved |
| C80 | RandomRing connects each vertex to the next one around the circle with weight (2π/N)/angle | Model/RandomRing.lean; sums over the cycle, with the Ring(N,1) theorems reused for the structure. | proved |
| C81 | Breaking and joining multi-dimensional signals is a round trip for separable names and at most ten columns | Model/Signals.lean (insertion-ordered dictionaries, rsplit, sorted names); Props/Signals.lean. | proved |
| C82 | from_networkx(G.to_networkx()) has the weights and signals of G; from_networkx sums what the graph says | Model/IO.lean: a NetworkX graph is its nodes with attributes and its weighted edges; to_scipy_sparse_array modelled from its documentation; uses the edge list theorem C04. | proved |
| C83 | from_graphtool(G.to_graphtool()) has the weights and signals of G when the last vertex has an edge | Model/IO.lean: a graph-tool graph is a number of vertices, weighted edges and vertex properties. | proved |
| C84 | load and save: format from the extension, backend by availability, round trip, errors leave the graph alone | Model/IO.lean: dispatch over an environment of readers and writers; Props/IOFiles.lean. | proved |
| C85 | set_coordinates: accepted arrays, exact line, ring, eigenmap and community positions, spring invariants | Model/Layout.lean on top of the graph state model; induction over the spring iterations. | proved |
| C86 | features: Tig, its norms and the spectrogram are diagonal entries of squared polynomials of L | Model/Features.lean; the Chebyshev theorems C36 and the frame theorem C34. | proved |
| C87 | The Fourier basis of Path is the DCT | trigonometric identities show that the DCT-II vectors are eigenvectors; equal characteristic polynomials and sortedness determine the eigenvalues; simple eigenvalues determine the vectors up to sign | proved |
| C88 | The graph frequencies of Ring, Torus and Grid2d | the discrete Fourier modes (and their Kronecker products, and those of the DCT) form a complete family of eigenvectors; equal characteristic polynomials give the multiset of the eigenvalues | proved |
| C89 | The graph frequencies of FullConnected and Star | explicit complete families of eigenvectors | proved |
| C90 | The filter designs are continuous in the frequency | every piecewise kernel is rewritten as a continuous function of a clamped variable; the values at the breakpoints are computed | proved |
| C91 | cheby_rect applies the best polynomial approximation of an ideal band-pass and converges to it | Model: the loop of cheby_rect over real matrices. Proof: the loop invariant gives the Chebyshev series; Pythagoras in L2([0, pi]) gives optimality; the partial sums of sum sin(kx)/k are bounded with an explicit rate, which gives the limit at every frequency. | proved |
| C92 | The Jackson-Chebyshev coefficients define a band-pass without overshoot, with a quantified accuracy | Model: the arithmetic of the function, with the mutation of the list. Proof: the Jackson kernel is an autocorrelation, hence non-negative; the damped polynomial is an average of the rectangle against it; its second moment gives the accuracy. | proved |
| C93 | lanczos returns an orthonormal Krylov basis and the projected matrix | Model: the iteration on one vector with its arrays V and H, exact arithmetic. Proof: loop invariant (orthonormality, recurrence, orthogonal residual, full reorthogonalization is the identity), then induction on the powers of A. | proved |
| C94 | SwissRoll and DavidSensorNet: which points are linked, with which weights, and where the points are | Model/PointClouds.lean: the arithmetic of both constructors with the random numbers as parameters, on top of distanz and rescale_center (C54, C56). Proof: logarithms and square roots are monotone; trigonometric identities. | proved |
| C95 | Sensor, Sphere, Cube and TwoMoons: positions of the points and minimal number of neighbors | Model/PointClouds.lean on top of Model/NNGraph.lean (C79), the random numbers being parameters. Proof: cells of a grid are disjoint; distinctness of the points then gives the structure theorem of NNGraph. | proved |
| C96 | ImgPatches and Grid2dImgPatches: patch features with mirrored borders, invariance, and the union with the grid | Model/ImgPatches: np.pad symmetric as reflections, view_as_windows as index arithmetic, then the model of NNGraph (C79). The specification of mirrors is by congruence modulo 2h, proved unique. The grid part reuses C70. | proved |
| C97 | Chebyshev filtering converges to exact filtering, with explicit error bounds | C36 identifies the Chebyshev filter with the interpolation polynomial at the Chebyshev nodes. Lemmas/ChebError: the Lagrange remainder by iterated Rolle; discrete Parseval gives a Lebesgue constant sqrt(2(m+1)); Jackson's theorem from the moment of the Jackson kernel (C92). The operator bound is spectral. | proved |
| C98 | Pictures of graphs | Model/Plot: the arguments given to the drawing library as a function of the arguments of plot; inversion of the checks gives positions, sizes, widths, colors, limits | proved |
| C99 | Filters are bound to graph objects | Model/LiveFilter: a heap of graph objects, kernels are closures that may read lmax through the heap; simulation by the pure banks of Model/Designs, histories by decomposition into reads | proved |
| C100 | Pictures of filter banks | Model/PlotFilter: what is given to the drawing library; inversion of plot, simulation of Model/LiveFilter | proved |
| C101 | With every built-in filter design but Rectangular, Chebyshev filtering converges to exact filtering | Lemmas/Lip: a calculus of functions that are Lipschitz on [0, lmax] (compositions with C1 functions, products, logarithms, cos(t arccos y) away from -1). The piecewise kernels are smooth functions of clamped frequencies (C90), the complements are absolute values of sines and cosines. Then the Jackson bound of C97. | proved |
| C102 | Renaming the vertices renames the results | Lemmas/Transport: a matrix Q with L'Q = cQL intertwines U h(e) Uᵀ and polynomials of L; Lemmas/Relabel: renaming of arrays through the shape handling; Props/Relabel. | proved |
| C103 | Multiplying all the weights by a positive constant | Props/Scale: C103_designs is an equality of banks (Bank.scaled), design by design; the filters follow from the intertwining lemma with Q = 1. | proved |
| C104 | Adding weight raises energies and frequencies and lowers resistances | Lemmas/Weyl: a non-zero combination of the first k+1 new eigenvectors orthogonal to the first k old ones; Props/Monotone: Rayleigh's law from the positivity of the energy of v - v'. | proved |
| C105 | A graph can be processed component by component | Lemmas/Piece: the selection matrix intertwines the Laplacians; Lemmas/PiecePinv: pseudo-inverses of pieces; Lemmas/PieceSpectrum: block-diagonal eigenbasis; Props/Components. | proved |
| C106 | Graphs made from data files | the arrays of the file are parameters; weights by the construction from a dense matrix or a list of entries; connectivity by lifting the paths of the file's graph | proved |
| C107 | The constructors draw their graphs faithfully | the sorted column of Grid2d is identified by uniqueness of the sorted permutation; chords of the circle and monotonicity of the sine | proved |
| C108 | Filtering on classical domains is classical signal processing | resolutions of the identity by explicit symmetric matrices of eigenvectors determine all the functions of the Laplacian; the matrices are given for each family | proved |
| C109 | The value of the bound on the largest frequency, and the graphs that attain it | Follow the four maxima and the NaN of isolated vertices through the model of np.max and min; characterise equality in each bound by the vanishing of a sum of squares (signless Laplacian, complement of the complete graph). | proved |
| C110 | Small changes of the weights make small changes of the results | Functions of symmetric matrices that are Lipschitz between the spectra are Lipschitz in Frobenius norm (rotate to the two eigenbases); the Frobenius norm of a difference of Laplacians is at most the sum of the weight changes (triangle inequality over pairs); Weyl's inequality for the frequencies; Lipschitz constants of the designs from C101, rescaling from C103. | proved |
| C111 | Frequencies interlace when a graph is changed locally, Kron-reduced or restricted | Courant-Fischer by dimension count (Lemmas/Interlace): a linear map into the other space that lowers the energy and does not lower the norm on the kernel of r linear forms shifts the sorted eigenvalues by at most r. For changed pairs the forms are x_i - x_j; for Kron the maps are the harmonic extension (r = 0) and the restriction (forms x_v for removed v); for subgraphs the restriction. | proved |
| C112 | Making a graph from a CSR matrix shares its memory | A memory of arrays addressed by references; csr_matrix(copy=False), prune, sum_duplicates and eliminate_zeros as in-place updates; a theory of row pointers (rowsOf) shows that writing a row-sorted list of entries and reading it back is the identity, and the constructor refines Graph.ofCsr; induction over histories. | proved |
| C113 | The transform diagonalises the Laplacian and the filters, and a signal cannot be concentrated in both domains | Coordinates in the stored basis: Uᵀ diagonalises L and every exact filter; Cauchy–Schwarz on the two supports gives the uncertainty principle; the penalised system with a full mask is (I + tau L) x = y. | proved |
| C114 | Effective resistances, graph frequencies and components | The pseudo-inverse is U diag(1/e) Uᵀ by uniqueness; the columns of U with a non-zero frequency sum to zero; the energy of column k is e[k]; number of zero frequencies from C27. | proved |
| C115 | The graph frequencies measure the bottlenecks of the graph (Poincaré and Cheeger) | Variational characterisation of e[1] on the complement of the kernel vector; indicator signals; the co-area inequality by induction on the support and the Cauchy-Schwarz inequality for the sweep over the positive or negative part of an eigenvector; Kirchhoff's index (C114) with the metric of resistances (C55) for the gap. | proved |
| C116 | What the default frame bounds mean | Model/Filter.lean (`linspace1000`, `boundsAt`, `estimateFrameBounds`), Props/FrameEstimate.lean. Every frequency is within half a step of the grid; the energy is the squared response weighted by the squared transform. | proved |
| C117 | The printed form of graphs and filters | Model/Repr.lean (the loop with its break, the slice s[:-2], the dictionary update), Props/Repr.lean. Induction over the attributes; decimal numerals are injective and contain no comma. The formatting of the values is a parameter. | proved |
| C118 | Where the Fourier modes change sign (nodal domains, spectral bisection) | Lemmas/Nodal.lean (Duval-Reiner identity, kernel argument, Fiedler's argument for any symmetric matrix without positive off-diagonal entries), Props/Nodal.lean. | proved |
| C119 | Sparsification: how close the sparsified graph is | Model: graphSparsify with the draws as a parameter. The outcome of the draws is a function of q independent indices; Chernoff's inequality and the second moment of the matrix in the eigenbasis are proved for finite products; Dirichlet's principle bounds one draw by the resistance. | proved |
| C120 | What the parameter tau of regression_tikhonov does | Model: regression1 (normal equation, conjugate gradient as an exact solver; sparse solve for tau <= 0). Comparison of minimisers, maximum principle, Dirichlet's principle (C119), diagonalisation. | proved |
| C121 | Filters and regressions are local, with a quantified error | Model: Bank.filter, heat, regression1. Polynomials of the Laplacian are supported within as many hops as their degree (C33); Taylor remainder of exp(-t) and geometric series of 1/(1+tau t); Parseval. | proved |
| C122 | Learning on the Kron-reduced graph is learning on the graph | Model: kronGraph, regression1, classification. Partial minimisation of the objective over the eliminated vertices (C62 energy), uniqueness (C58, C59), maximum principle. | proved |
| C123 | The distribution of StochasticBlockModel and ErdosRenyi | Model: sbm (Verif/Model/BlockModel.lean), the random numbers being a sequence; product measure of uniform distributions on [0,1) (Mathlib infinitePi). Each pair is decided by its own random number (C74), the attempts use disjoint blocks of numbers; geometric series; Hoeffding's inequality (Mathlib). | proved |
| C124 | Flows along the edges: Helmholtz decomposition, circulations, Thomson's principle | D D' = L gives range D = range L (equal ranks); Pythagoras for grad + circulation; kernel of L = functions on the components; pseudo-inverse for the demands; Thomson's principle turned into flows over the edge list; walks with orientation for the gradients. | proved |
| C125 | Connectivity and degrees of StochasticBlockModel and ErdosRenyi | C123 gives the law of the pairs; union bound over the cuts, counting of the crossing pairs, 1 + x <= exp(x), Hoeffding for the pairs of a vertex. | proved |
| C126 | Diffusion is the heat equation | spectral calculus: derivative of exp(-t L); uniqueness by the decay of the energy of the difference; positivity by propagation of zeros to earlier times and neighbours; Jensen for doubly stochastic matrices | proved |
| C127 | Waves conserve energy and have finite speed | spectral calculus with cos(t arccos(1 - c^2 e / (2 lmax))); at integer times a Chebyshev polynomial of the Laplacian of degree |T| | proved |
| C128 | Figures and windows opened by plots, and what close_all() closes | Model/Windows.lean (the figures managed by pyplot, the two global lists, the decorator, the loops of close_all), Props/Windows.lean: a simulation between the global lists and the figures that appeared, by induction over the history; the content of the pictures is that of C98 and C100 | proved |
| C129 | What can be read in the printed form of a graph | Model/Classes.lean, Props/Classes.lean: the join of texts without commas is injective (induction), key=value splits at the first equals sign, decimal numerals are injective; weights from the constructors (C67-C72) | proved |
| C130 | use_flann: which search makes the graph of NNGraph | Model/NNSearch: the chain of searches with the packages as parameters (an ImportError included), from their answers to the matrix; reduction to the model of C79; uniqueness of the sorted list of k+1 closest points without ties. | proved |
| C131 | What the functions of the library do to the graph they receive | Model/Calls: a type of calls and the state after each one; for each call, the final state is reached by a list of graph methods (by cases over the points where it can stop), then induction over the program and the invariants of C16. | proved |
| C132 | Clusters of the graph are clusters of the first Fourier modes | Ky Fan's minimum principle for the normalised indicators of the clusters; Poincare's inequality (C115) in the subgraph that `subgraph` returns; the matrix of scaled cluster means is a near-isometry, so its rows are far apart | proved |
| C133 | A partial Fourier basis is the beginning of the full one | a provenance invariant over histories (a stored partial basis is the answer of the partial solver for the current Laplacian); Courant-Fischer by dimension counting; Ky Fan's minimum principle; C132 for the drawing | proved |
| C134 | Learning, resistances and Kron reduction have their random-walk meaning | Spec/Walk defines the walk by its transition matrix with a stopping probability at every vertex; Lemmas/Walk proves that it stops almost surely (monotone convergence and the maximum principle) and that the solution of x = f + K x is the sum of the series; the normal equations of the regression, Poisson's equation of the hitting times, Ohm's law and the Schur complement are of that form. | proved |
| C135 | Small changes of the weights make small changes of the Fourier modes and of ideal filters | Davis and Kahan's argument in Frobenius norm: the inner products of the modes weighted by the differences of frequencies are the entries of the change of the Laplacian in the two bases; Weyl's inequality moves the gap to the other graph; for the ideal filter, the response is Lipschitz on the frequencies of the two graphs. | proved |
| C136 | Drawing preferences: whose win, how long they stay, and the announced limits | Model/Preferences: a heap of dictionaries, references of the user, all constructors with their own dictionaries, histories. Invariant: all the dictionaries held are different objects and the default arguments stay empty; induction on the history. The limits are compared with the positions modelled for C77, C80, C85, C94, C95, C107. | proved |
| C137 | The distribution of Barabási–Albert trees | Draws are an infinite product of uniform laws; Generator.choice with size 1 is the inversion of the cumulated probabilities. The degree process is a function of the draws, the next draw is independent of the past (product measure), which gives a recurrence for the means; the law by the product of the slices. | proved |
| C138 | Symmetries of the spring layout | Model/Layout. Induction on the iterations: distances, displacements and steps commute with permutations and with orthogonal affine maps, and keep linear equations; the rescaling by the largest coordinate handled through its characterisation. | proved |
| C139 | The two classifiers, one class against the others, merged classes | Model/Learning; the columns by unfolding, additivity by the maximum principle, the agreement from the normal equations and the unique minimiser, the rate from the three-point inequality of the step and the smallest eigenvalue | proved |
| C140 | What the graph of NNGraph depends on | the model of C79 is run on both sets of points; the neighbours returned by the search are shown to be the same, and the weights compared; two counterexamples (rotation with rescaling, triangle) are evaluated | proved |
| C141 | The frequencies and the second Fourier mode of StochasticBlockModel samples | the deviations of the weights from their means are independent, bounded and centred: the mean of the squared Frobenius norm of the square of their matrix is at most 2 N^3 v (only the closed walks of length four that retrace their steps count), Markov's inequality bounds the quadratic form, Hoeffding's inequality (C125) the degrees; Weyl's inequality moves the frequencies, and an energy comparison aligns the second mode with the communities. | proved |
| C142 | Rounding errors of Chebyshev filtering and of the Laplacian | Model/Rounding.lean repeats the arithmetic of cheby_op, dw, symmetrize and compute_laplacian with a rounding function after each operation (with the identity it is the exact model); a calculus of relative errors bounds one step, the error recurrence is solved with the Chebyshev polynomials of the second kind, bounded by k + 1 on [-1, 1]; Weyl's inequality for the frequencies. | proved |
| C143 | Rounding errors of the Fourier transform and of exact filtering | Model/RoundedFourier.lean: the values that a dot product may take are an inductive relation (any summation tree); the relative-error calculus of C142 on it; the Frobenius norm of an orthonormal matrix is sqrt(N); the Lipschitz bound for functions of matrices of C110. | proved |
| C144 | The sanity checks of compute_fourier_basis and estimate_lmax under rounding errors | The solver is a parameter of the model; Weyl's inequality for the values, then the branches of the assertions; the findings by shifting an exact decomposition by a multiple of the norm of the matrix. | proved |
| C145 | Rounding errors of the normalized Laplacian | Relational error calculus (a value is within k roundings of another); inverse square roots of perturbed degrees; the quadratic form of the entry-wise bound is at most twice the squared norm because the exact matrix is positive semi-definite; Weyl. The finding by evaluating the rounding on explicit 53-bit integers. | proved |
| C146 | Learning with the tolerance of the conjugate gradient | scipy's loop is modelled in Model/ConjGrad.lean; induction shows that residuals are orthogonal and directions conjugate, N + 1 nonzero orthogonal residuals are impossible; the error by the energy and the effective resistance; for small tau the first residual is the component of tau L y orthogonal to y. | proved |
| C147 | The accelerated solver of classification_tikhonov_simplex | Model/Fista.lean: acceleration, stopping rule and the whole function. Lyapunov function of FISTA on top of the three-point inequality of a step (C61), adapted to pyunlocbox's first iteration from an infeasible point; existence of a minimiser by compactness; induction on iterations for the locality. | proved |
| C148 | Rounding errors of dirichlet_energy, grad and div | Model/RoundedEnergy.lean rounds every operation; the dot product is a relation over all orders of summation; the calculus of relative errors of C142 by induction over the loops and over the derivations of the relation; exact integers by the same induction; the violation by evaluating the rounding symbolically in p. | proved |
| C149 | Rounding errors of the Chebyshev coefficients, and of Chebyshev filtering from the kernels to the signals | Model/RoundedCoeffs.lean rounds every operation of compute_cheby_coeff; the angles by the calculus of relative errors, the cosine is 1-Lipschitz, the dot product is a relation over all orders of summation; combined with C142_total and C97_heat. | proved |
| C150 | Rounding errors of distanz | Model/RoundedDistances.lean rounds every operation of distanz, with relations for the two sums; the calculus of relative errors bounds the square, and |a - b|^2 <= |a^2 - b^2| the distance; explicit points for the findings. | proved |
| C151 | The edges between the communities of Community are uniformly distributed | bijections of the sequences of draws (of the permutations) induced by a permutation of the pairs that maps one set to the other; the loop commutes with it, by induction over the draws; double counting for the probability. | proved |
| C152 | The distribution of the edges inside the communities | Model/Community (intraPairs, communityBuild). The permutation of the call number c is a parameter, everything else in the generator is fixed and arbitrary. Every permutation gives a graph whose edges inside c are the image of the first floor(d M) positions, all other weights unchanged; counting permutations (translation by a permutation, double counting) gives the probabilities. | proved |
| C153 | Kron reduction and multiresolution of the classical graphs | The reduced weights are characterised by harmonic extension (uniqueness of the Schur complement on a connected graph).  For the multiresolution: on a connected regular bipartite graph every eigenvector of the largest eigenvalue is constant on the two sides with opposite signs, so that the sign selection keeps the even vertices; the cycle with half the weights comes back and the levels follow by induction. | proved |
| C154 | Reduction and multiresolution of bipartite graphs | Star-mesh: harmonic extension, which is explicit when the eliminated vertices are independent.  Last mode: the vector of the absolute values with the signs of the sides has at least the energy of the mode, hence is an eigenvector of the same eigenvalue; a zero would spread to the neighbours.  Levels by induction. | proved |
<!-- /TABLE -->

## Findings (places where the code violates the property one would expect)
Each of these is a theorem about the model; the property it belongs to is stated so that it excludes the case.
<!-- FINDINGS -->
| theorem | what it says |
|---|---|
| `C09_negative_weights_violated` | with a negative weight, `extract_components` (which uses `W > 0`) disagrees with `is_connected` (which uses `W != 0`): the two-vertex graph with weight -1 is connected but is split in two. |
| `C11_negative_weights_violated` | Non-negativity is needed: a negative weight gives a negative energy. |
| `C14_documented_normalized_energy_violated` | The formula in the docstring of `dirichlet_energy` (values divided by the degree itself) does not hold. |
| `C19_type_change_violated` | After a successful Lanczos estimate (an explicit `estimate_lmax()` or the first read of `G.lmax`), changing the Laplacian type makes `G.lmax` return `None` instead of a number: the reset forgets `_lmax_method`. This holds for every graph and every solver. |
| `C19_scenario_violated` | The scenario exists: `G.estimate_lmax(); G.compute_laplacian('normalized'); G.lmax` is `None`. |
| `C20_reestimate_violated` | ... so re-estimating in between wins: after `compute_fourier_basis(); estimate_lmax('bounds'); compute_fourier_basis()` on the normalized triangle, `G.lmax` is 2 although `G.e[-1]` is 3/2. |
| `C21_laplacian_violated` | Not atomic: `compute_laplacian('foo')` raises ValueError, but the object now claims the type 'foo', keeps the Laplacian of the previous type, and has dropped its basis, coherence, `D` and `lmax`. For every state whose type is not already 'foo'. |
| `C21_estimate_violated` | Not atomic: when `estimate_lmax(method)` raises, repeating the very same call succeeds silently (and does nothing), because the method was recorded before the work was done. |
| `C21_fourier_violated` | Not atomic: when `compute_fourier_basis(k)` raises AssertionError, the arrays it rejected are stored and the same call then succeeds silently. |
| `C24_partial_basis_violated` | With a *partial* basis (after `compute_fourier_basis(n_eigenvectors=k)` with `k < N`), `igft` raises ValueError on every signal: on the `k` coefficients returned by `gft` because of the length check, and on `N` coefficients because the shapes do not match. |
| `C28_partial_basis_violated` | With a partial basis (after `compute_fourier_basis(n_eigenvectors=k)`, `k < N`) exact filtering raises AssertionError (once the kernels have been evaluated), on every valid signal. |
| `C31_single_synthesize_violated` | `synthesize` does not undo `analyze` when there is a single filter: the analysis has been squeezed to one dimension, of size `n_vertices ≠ 1 = n_filters`, and `synthesize` raises ValueError. |
| `C34_frame_violated` | When there are as many filters as vertices (two or more), the identity matrix given to `filter` is taken for one signal with `n_filters` features: `compute_frame()` returns a `1 × N` array. |
| `C41_regular_degree_violated` | `Regular` does not implement its documented degree: degrees 0 and 1 are right, but every degree `d ≥ 2` gives the documented filter of degree `d - 1`; so degrees 1 and 2 are the same filter bank. |
| `C47_negative_speed_violated` | A negative speed is not rejected although the documented range is `[0, 2[`: with `-3` the filter is built, and its value at `lmax` is `arccos` of a number below `-1` (NaN; not a number of the model). |
| `C51_modulation_repeated_violated` | When an eigenvalue is repeated, all the filters have the same value at its copies, although the modulated kernel does not: the coefficients of the first copy replace the others. |
| `C53_tril_negative_violated` | With negative weights `tril` does not mirror the triangle: the weight is replaced by 0. |
| `C58_one_column_violated` | A 2-D array of one column cannot be interpolated unless exactly one vertex is not measured. |
| `C58_integer_measurements_violated` | with integer measurements the interpolated values are truncated. On the path with three vertices, with `y = [0, 0, 1]` (integers) and the middle vertex unknown, the middle value is 0 instead of 1/2, which is not the minimiser. |
| `C60_negative_labels_violated` | a negative label is not rejected, it silently becomes another class. |
| `C60_single_class_violated` | with only one class (all labels 0) and at least two unknown vertices, `tau = 0` raises ValueError instead of returning the only class. |
| `C62_coords_violated` | without coordinates the reduction fails. |
| `C63_many_violated` | Several signals are interpolated one by one but the results are stacked in a single column of length `N * m`. |
| `C63_constant_violated` | a constant signal is not reproduced from its samples, every other vertex gets less. |
| `C64_1d_violated` | a 1-D signal `x` is not reconstructed; the result is an `(N, N)` array whose rows are all equal to `x`. |
| `C64_many_violated` | of several signals only the first one is decomposed; the coarse approximations are those of the first signal. |
| `C64_default_violated` | with the default parameters the analysis interpolates with order 100 and the synthesis with order 30, so that the signal is not recovered: already on the graph with two vertices. |
| `C65_basis_overwritten_violated` | when `G` has a complete Fourier basis, `graph_multiresolution` multiplies the last column of `G.U` in place by the sign of its first entry - also when it raises later. |
| `C65_basis_destroyed_violated` | the cached Fourier basis can be destroyed. For the connected graph `triangle10`, whatever the eigensolver returns, the last eigenvector vanishes at the first vertex; after `compute_fourier_basis()` and `graph_multiresolution` the last column of `G.U` is zero. |
| `C65_sparsify_violated` | sparsification (the default) and several levels do not work together. A level with three or four vertices cannot be sparsified (the epsilon that is passed is 1, refused with ValueError), and a sparsified graph has lost its coordinates, without which it cannot be reduced again (AttributeError): when the call succeeds, every graph after the first one has two vertices or at least five, and only the last one can have more than two. |
| `C66_two_vertices_violated` | for a connected graph with two vertices no epsilon is accepted: the number of draws is rounded to zero and the division `0 / 0` makes the constructor raise ValueError. |
| `C66_matrix_violated` | for a Laplacian matrix the result is not a Laplacian: its diagonal is zero, its other entries are not positive and its rows do not sum to zero (they sum to the opposite of the new degrees). |
| `C68_even_violated` | for `2k = N` (for instance `Ring(4, 2)`), which the constructor accepts, the graph is not a ring: the vertex 0 has a self-loop, the graph is directed, and opposite vertices other than 0 are not connected. |
| `C70_negative_diagonal_violated` | A negative `diagonal` is accepted and ignored: the graph is the grid without diagonals. |
| `C73_loop_violated` | A self-loop of the graph becomes an isolated vertex of the line graph with a self-loop of weight `-1`, although it shares its vertex with other edges. |
| `C74_integer_q_violated` | When `q` is an integer matrix, a probability `p` in `[0, 1)` is truncated: no edges inside the blocks at all. |
| `C74_q_overwritten_violated` | The matrix `q` of the user is modified: its diagonal is overwritten by `p`. |
| `C76_never_returns_violated` | `RandomRegular(4, 2)` may never return: the number of tested pairs is compared with `N * k` only when the tested pair is illegal. If the `N * k`-th pair is legal and leaves no legal pair, the loop runs forever, whatever the following random numbers are. |
| `C76_restart_violated` | The restart is broken with a SciPy that rejects floating-point indices: `RandomRegular(2, 1)` raises ValueError when the two first pairs of half-edges are illegal, although the following one is legal (and the graph with one edge is 1-regular). |
| `C77_tree_violated` | `LowStretchTree` is not a tree: in every group of four vertices `4b, ..., 4b + 3`, the edge between `4b` and `4b + 1` goes one way only and its other direction is a self-loop of `4b + 1`; the graph is directed and `is_connected` answers False. |
| `C78_k_neigh_violated` | With `k_neigh` (and no `comm_density`), there is no edge at all inside the communities, whatever `k_neigh` is: the documentation promises `k_neigh` intra-community connections. |
| `C78_empty_violated` | A community of size zero, although the sizes add up to `N`, raises IndexError. |
| `C78_single_violated` | A graph with one vertex cannot be made with the default number of communities: `round(sqrt(1) / 2) = 0`. |
| `C79_duplicates_violated` | Points that coincide may get self-loops: the search may return the other point first, and only the first result is discarded. With the points 0, 0, 1 on the line and `k = 1`, a valid search gives the first vertex a self-loop of weight one. |
| `C79_mutates_violated` | The array of the caller is modified when `center=False` and `rescale=True`: it becomes the rescaled coordinates. |
| `C80_coincident_violated` | two vertices at the same angle, which nothing in the documentation excludes, make the constructor fail with an AssertionError (for up to a hundred thousand vertices; beyond, the coincident vertices are silently left unconnected). |
| `C80_mutates_violated` | the array of angles given by the caller is sorted in place: unless it was already sorted, it is changed. |
| `C81_order_violated` | a signal with eleven or more (different) columns comes back with its columns in another order (`_10` is sorted before `_2`). |
| `C81_one_column_violated` | a two-dimensional signal with a single column comes back one-dimensional and under another name, and one without columns does not come back. |
| `C81_lost_violated` | two one-dimensional signals named `x` and `x_1` (or `x_` followed by anything without underscore) are both lost. |
| `C81_merged_violated` | two one-dimensional signals named `a_b` and `a_c` come back as one two-dimensional signal `a`. |
| `C81_export_mutates_violated` | exporting changes the graph: the signals of the graph itself are broken, so that afterwards `G.signals` has no key for a two-dimensional signal. |
| `C83_isolated_violated` | graph-tool creates the vertices up to the last one that has an edge only. The isolated vertices at the end are lost, and if the graph has a signal the export fails with ValueError. |
| `C84_save_mutates_violated` | `save` breaks the signals of the graph that is saved: a signal with several columns is no longer there afterwards. |
| `C85_spring_zero_violated` | when the given coordinates are at most zero, and one is zero (a vertex at the origin, the others below and to the left), the vertices that are not fixed get the coordinates NaN at the first iteration. |
| `C85_spring_single_violated` | the spring coordinates of a graph with one vertex are NaN. |
| `C85_spring_range_violated` | the coordinates are not rescaled to `(-scale, scale)`, contrary to the comment in the code: the points `(-2)`, `1`, `1` (with no iteration) become `-2`, `1`, `1`. |
| `C85_single_vertex_violated` | the coordinates of a graph with one vertex cannot be set from an array. |
| `C85_spring_negative_violated` | when all the given coordinates are negative (and `k` is None), linked vertices repel each other at every distance. |
| `C85_community_missing_violated` | what is missing in `info` is not reported as the ValueError that the code constructs. Without `info`, AttributeError is raised (so the layout fails on every graph but `Community`); without `comm_sizes`, NameError; without `node_com`, KeyError after the coordinates have been overwritten. |
| `C85_eigenmap_basis_violated` | the eigenmaps leave a partial Fourier basis behind. On a graph whose basis has not been computed, with more vertices than eigenvectors are needed, every inverse Fourier transform raises ValueError afterwards. |
| `C85_eigenmap_small_violated` | on a graph with too few vertices the eigenmaps raise TypeError. |
| `C86_avg_violated` | this is not the average of the degrees of the vertex and of its neighbours. On the complete graph with unit weights and at least three vertices it is 1, when all the degrees are `N - 1`. |
| `C86_bank_violated` | for a bank of `Nf ≥ 2` filters, `compute_tig` returns `Nf` times the same matrix, the one of all the filters, instead of one matrix per filter. |
| `C86_method_violated` | the argument `method` is ignored: asking for the exact method changes nothing. |
| `C86_plot_violated` | `G.plot_spectrogram()` never draws anything: it raises ValueError when the library `pyqtgraph` is installed (four modules are unpacked into three names), ImportError when it is not; the graph is left alone. |
| `C92_bounds_overwritten_violated` | The caller's list is overwritten (a defect): after a successful call the list given as `filter_bounds` holds the bounds rescaled to `[-1, 1]`. So the same call, repeated with the same list on a range of non-negative frequencies, raises TypeError as soon as the band starts below the middle of the range. |
| `C93_square_violated` | `H` is not square when the order exceeds the number of vertices (a defect): the iteration then always stops early, and the code keeps one row too few (`H[: k - 1]` for `k` columns), so that the eigenvalues of `H` cannot be computed. |
| `C94_david_dense_violated` | a larger network is not sparser. The distance up to which sensors are linked decreases with the number of sensors only up to 761; then it grows again, and with 5696 sensors or more any two sensors are linked. |
| `C95_sphere_radius_violated` | `radius` is the radius of the sphere. The points are at distance one from the origin whatever `radius`. |
| `C95_twomoons_copies_violated` | the two moons are random independently. With a seed and an even number of vertices, both moons use the same draws: vertex `N/2 + i` is vertex `i` translated by -1 along the first axis, up to the symmetric of the arc along the second. |
| `C98_line_without_signal_violated` | On a line, a graph of several vertices cannot be plotted without signal: ValueError. |
| `C98_small_signal_violated` | A signal of three or four values between zero and one is taken for a color: the limits and the color bar of the user are ignored. |
| `C98_single_violated` | One value for the only vertex of a graph, or for the only edge of a graph, is rejected with ValueError. |
| `C98_pyqtgraph_violated` | With `pyqtgraph`, the vertices are at their coordinates and the segments between the ends of the edges; the limits `(a, b)` are sent to the ends 1 and 64 of the color map exactly when `a = 0`: with any other `a` the values of the signal do not have the colors they should have. |
| `C99_response_changes_violated` | Reading `G.e` changes the filters already built. On every graph just constructed (non-negative weights, at least two vertices, not all isolated), the response of a heat kernel at any positive eigenvalue before and after the Fourier basis is computed are different numbers: `lmax` goes from 1.01 times the largest eigenvalue to that eigenvalue. |
| `C99_call_lmax_violated` | `f(G2)` is not the design on `G2`. A heat kernel built on `G1` and moved to `G2` by `f(G2)` has not the response of the heat kernel built on `G2`, as soon as the two graphs have different `lmax`. |
| `C100_twice_violated` | Drawing the eigenvalues the first time. On a graph just constructed (non-negative weights, an edge), `f.plot(eigenvalues=True)` draws abscissae up to 1.01 times the largest eigenvalue; the same call again draws up to the largest eigenvalue only: the first one has changed `G.lmax`. |
| `C109_bipartite_violated` | Without connectedness the equivalence fails: a triangle and a separate edge have the eigenvalue 2 (as the comment in the code puts it, "Equal iff the graph is bipartite"), and the graph is not bipartite. |
| `C112_corrupts_violated` | the caller's matrix can be corrupted. A matrix with `W[0,1] = W[1,0] = 2` is stored with four explicit zeros. `G1 = Graph(W)` removes them; then `W.data[0] = 0` leaves `W[1,0] = 2` alone, and `G2 = Graph(W)` is the right graph - but afterwards `W` is the zero matrix, and `G1.W` has a self-loop at vertex 1: of the three arrays, only `indptr` was shared. |
| `C112_stale_violated` | values computed by the constructor do not follow the shared memory. After `G = Graph(W)`, the assignment `W.data[0] = 5` changes `G.W`, which becomes directed, with two edges; `G.n_edges` is still one, and `G.L` is still the Laplacian of the old weights. |
| `C116_estimate_violated` | In general the estimate proves nothing: for every graph one of whose eigenvalues is not one of the thousand frequencies there is a continuous kernel for which `estimate_frame_bounds()` says `(1, 1)`, a tight frame, although some signal's energy is multiplied by four. |
| `C117_small_limit_violated` | A limit under 2 does not limit anything: the form is the one without limit. |
| `C128_stray_figure_violated` | The figure of a color bar: when axes are given and `pyplot` manages no figure, a plot with a color bar opens an empty figure which is not returned and which `close_all()` does not close. |
| `C129_grid2d_violated` | The value of the diagonal weight is not printed: two grids with different positive diagonal weights print the same, and do not have the same weights. |
| `C129_block_model_violated` | `repr` (and so the default title of a plot) of a `StochasticBlockModel` raises AttributeError exactly when it was made from a matrix of probabilities. |
| `C130_metric_violated` | Wrong arguments are rejected without `use_flann` and silently replaced by the Euclidean distance with it, when scikit-learn is used: an unknown `dist_type` (instead of a KeyError) and a Minkowski order at most zero, which is the default value of `order` (instead of a ValueError). |
| `C131_never_returns_violated` | Three functions never return: `tree_multiresolution`, `prox_tv` and `lanczos_op` raise for every graph and all arguments; in passing the first computes the Fourier basis when it is asked to, and the second `G.lmax`. |
| `C136_limits_grid_violated` | C136, Violated: the limits of `Grid2d` leave out the bottom row of every grid. |
| `C136_limits_swissroll_violated` | C136, Violated: the limits of `SwissRoll` do not contain all rolls: the coordinates are divided by their largest value, not by their largest absolute value, and can be as low as -2. |
| `C136_patches_ignored_violated` | C136, Violated: `Grid2dImgPatches` accepts preferences and ignores them. Whatever is given, the preferences of the new graph are those of the grid. |
| `C136_tree_width_violated` | C136, Violated: the width of the edges of `LowStretchTree`. Its constructor asks for thin edges under a name that nothing reads; after any history a new tree is drawn with the default width. |
| `C139_normalized_violated` | (the normalized Laplacian) The two classifiers differ: on every graph with two linked vertices of different degrees, when all the labels are the same the rows of `classification_tikhonov` are not all probability vectors, whereas every iteration of `classification_tikhonov_simplex` gives the class the probability 1 everywhere. |
| `C140_rescale_rotation_violated` | Rescaling makes the graph depend on the axes: three points and the same points rotated by an angle of cosine 3/5 do not get the same weights when `rescale=True` (the default), with the Euclidean distance and the default sigma. |
| `C140_triangle_violated` | Keeping one triangle makes the graph depend on the order of the points: of the points 0, 1, 3 on the line, 1 is the nearest of 3 but not conversely, and with `symmetrize_type='tril'` the edge between them exists in this order and not in the reverse one. |
| `C144_scale_violated` | the assertion on the first frequency uses an absolute tolerance. Whatever the relative accuracy of the eigensolver (even one unit roundoff), there is a connected graph (one edge with a large weight) on which `compute_fourier_basis()` may raise AssertionError; with the weights divided by a constant it would not (`C144_basis`). |
| `C144_negative_violated` | only the first frequency is set to zero. On every graph that is not connected (and has an edge), and whatever the accuracy of the eigensolver, the second frequency may be negative after `compute_fourier_basis()` returned normally: `e` is then not sorted, and the response of `Wave` at it is NaN (`arccos` of a number above 1). |
| `C144_lmax_violated` | the tolerance of the assertion of `estimate_lmax` is absolute too, and there are graphs whose largest frequency equals the upper bound. Whatever the relative accuracy `u` of ARPACK, there is a connected graph (one edge) on which a value that is right up to `u` makes `estimate_lmax()` (hence `G.lmax` and the filters that use it) raise AssertionError. With `u = 2^-53` a weight of 4504 suffices. After that `estimate_lmax()` returns at once and `G.lmax` is None. |
| `C145_symmetric_violated` | the computed normalized Laplacian need not be symmetric. For the triangle with the weights 7, 2 and 18, in double precision (53 binary digits, rounding to nearest, with a power that is rounded correctly), `L[0, 1]` and `L[1, 0]` differ, because `(d[0] * W[0, 1]) * d[1]` and `(d[1] * W[1, 0]) * d[0]` are rounded differently. |
| `C146_small_tau_violated` | Hence the regression is not near the interpolation for small `tau`: with the same measurement `c` everywhere, an exact solver gives `c` on all vertices, for every `tau`, the solver of scipy gives zero on the unmeasured ones. |
| `C146_classification_violated` | In the same way the classification gives no information on the unlabelled vertices: their rows are zero. |
| `C146_additive_violated` | But the result is not additive: when every vertex is measured and `tau` is small, the regression of the sum of a constant and of any signal that is not constant on a component is not the sum of the regressions. |
| `C147_far_violated` | So when all the measured labels are `c > 0` and a vertex is more than `maxit` hops away from them, its row is uniform over the `c + 1` classes, although giving class `c` to every vertex has the objective zero. |
| `C148_negative_violated` | A deviation: the energy can be negative. With `p` binary digits, on the path of three vertices with the weights `1` and `2 ^ -(p + 1)`, `dirichlet_energy` of the constant signal `1` is `-2 ^ -(p + 1)`, whatever the order of the operations, where the exact energy and the computed gradient are zero. |
| `C150_separated_violated` | C150: the computed distance does not separate points: with `p` binary digits, the distance from 1 to `1 + k 2^(1-p)` is computed as zero for every `k` below `2^(p/2 - 1)`, however the products are added. In double precision, all the points within `7e-9` of 1 are at distance zero of it. |
| `C150_diagonal_violated` | C150: the computed distance from a point to itself may be non-zero: with `2q + 1` binary digits, for the point `(5/8 2^(-q), 1 + 2^(-q-1))`, it is at least `2^(-q)` (`1.5e-8` in double precision) when the scalar product uses a fused multiply-add. |
<!-- /FINDINGS -->

Further defects visible in theorems whose names do not end in `_violated` (they are part of an exact characterisation),
or in the comments of the model:
* `Filter.filter(method='chebyshev')` on a graph without edges divides by `lmax = 0` (C36).
* `Abspline` does not validate its number of scales; `Modulation.filter` without a precomputed basis raises (C46, C51).
* The documented low-pass filter of `Regular` is the high-pass one (C41).
* Labels of a component without a labelled vertex are NaN (C60); `kron_reduction` of a component without a kept vertex
  is a singular solve (C62).
* `pyramid_synthesis` cannot be given `reg_eps` (TypeError) (C64).
* `graph_sparsify`: directed graphs lose the edges of the upper triangle; `maxiter=0` is a NameError;
  `scipy.stats.itemfreq`, which it calls, no longer exists in current SciPy versions (C66).
* `Grid2d(N1, 1)` raises ValueError (C70). `StochasticBlockModel(n_try=0)` is UnboundLocalError; for an undirected graph
  only `M[z[i], z[j]]` with `i >= j` counts; its `repr` fails when `M` is given (C74).
* `BarabasiAlbert(m0=0)` reaches a division 0/0 (C75). `RandomRegular` may return an edgeless graph without a warning (C76).
* `NNGraph` with `k >= N` raises ValueError even for `NNtype='radius'`; `k = 0` raises IndexError (C79).
* `compute_cheby_coeff`/`compute_jackson_cheby_coeff`: `raise ()` is a TypeError; an empty range divides by zero (C92).
* `SwissRoll` with an unknown `srtype`/`dim`, `Cube` with `nb_dim=1`, and images that are neither 2-D nor 3-D end in
  UnboundLocalError; `Cube` in 3-D has `6 * (nb_pts // 6)` vertices (C94-C96).
* `graph_multiresolution` and the `community2D` layout construct ValueErrors without raising them (C65, C85).

