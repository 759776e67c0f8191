{"id": "C01", "title": "Graph(adjacency) accepts exactly the finite square matrices", "statement": "Graph(adjacency) succeeds iff the input is 2-D, square and contains no NaN/infinite entry (and the Laplacian type is known); otherwise it raises ValueError. On success G.W equals the input matrix and stores no explicit zero.", "quantifier": "every array (any number of dimensions, any shape, any mixture of finite/NaN/±inf entries), dense or sparse, with any explicit zeros", "why_tests_cant": "the NaN and inf checks are done on the SUM of the entries, so correctness depends on how every mixture of NaN, +inf and -inf adds up", "anchors": ["pygsp/graphs/graph.py:Graph.__init__"]}
{"id": "C02", "title": "n_edges counts each edge once, whatever the storage", "statement": "G.n_edges is the number of non-zero entries of W for a directed graph, and the number of unordered pairs {i,j} (i=j allowed) with W[i,j] != 0 for an undirected one; explicit zeros, storage order and positions stored several times (their values are summed) do not matter.", "quantifier": "every square matrix and every way of storing it (explicit zeros, any order, positions stored once or several times)", "why_tests_cant": "the count is obtained by arithmetic on nnz (off_diagonal // 2 + diagonal), which is right only because of a global symmetry argument", "anchors": ["pygsp/graphs/graph.py:Graph.__init__"]}
{"id": "C03", "title": "is_directed() iff the weight matrix is not symmetric", "statement": "G.is_directed() returns True exactly when W[i,j] != W[j,i] for some i, j, on the first and on every later call.", "quantifier": "every weight matrix, every call history", "why_tests_cant": "needs all matrices and the lazily cached answer", "anchors": ["pygsp/graphs/graph.py:Graph.is_directed"]}
{"id": "C04", "title": "get_edge_list lists every edge exactly once", "statement": "get_edge_list() returns sources, targets, weights such that each edge appears exactly once (i<=j for undirected graphs, every ordered pair for directed ones) with its weight, and the internal check n_edges == sources.size == targets.size == weights.size never fires.", "quantifier": "every graph built by the constructor", "why_tests_cant": "an assertion relates two independently computed counts; only a proof shows it can never fail", "anchors": ["pygsp/graphs/graph.py:Graph.get_edge_list"]}
{"id": "C05", "title": "is_connected() decides (strong) connectivity and terminates", "statement": "is_connected() terminates and returns True iff every vertex can reach every other vertex through non-zero weights (following arc directions when directed), whatever order vertices are popped from the Python set.", "quantifier": "every non-empty graph, every set-iteration order", "why_tests_cant": "set.pop order is unspecified: every schedule of the traversal has to give the same answer", "anchors": ["pygsp/graphs/graph.py:Graph.is_connected"]}
{"id": "C06", "title": "has_loops / is_weighted", "statement": "has_loops() is True iff some W[i,i] != 0; is_weighted() is False iff every non-zero weight equals 1.", "quantifier": "every graph", "why_tests_cant": "must hold for every matrix and storage", "anchors": ["pygsp/graphs/graph.py:Graph.has_loops", "pygsp/graphs/graph.py:Graph.is_weighted"]}
{"id": "C07", "title": "Degrees", "statement": "G.d[i] counts the edges at i (mean of in- and out-degree when directed) and G.dw[i] sums their weights; the fast path used for undirected graphs returns the same values as the general formula.", "quantifier": "every graph", "why_tests_cant": "equivalence of a shortcut with the general formula for every symmetric matrix", "anchors": ["pygsp/graphs/graph.py:Graph.d", "pygsp/graphs/graph.py:Graph.dw", "pygsp/graphs/graph.py:Graph.A"]}
{"id": "C08", "title": "subgraph is the induced subgraph", "statement": "G.subgraph(v) has W'[a,b] = W[v[a],v[b]], the coordinates and attached signals restricted to v in the same order, and the same Laplacian type; the parent is unchanged.", "quantifier": "every graph and every list of vertices (indices in any order, repetitions allowed, or a boolean mask)", "why_tests_cant": "re-indexing must be right for every selection", "anchors": ["pygsp/graphs/graph.py:Graph.subgraph"]}
{"id": "C09", "title": "extract_components partitions an undirected graph", "statement": "For an undirected graph with non-negative weights extract_components() terminates and returns subgraphs whose original vertex lists (info['orig_idx']) are disjoint, cover all vertices, and are exactly the connected components; directed graphs raise NotImplementedError.", "quantifier": "every undirected graph with non-negative weights", "why_tests_cant": "depends on a traversal whose order is unspecified", "anchors": ["pygsp/graphs/graph.py:Graph.extract_components"]}
{"id": "C10", "title": "Combinatorial Laplacian", "statement": "For lap_type 'combinatorial', G.L is symmetric, every row sums to zero, off-diagonal entries are -(W[i,j]+W[j,i])/2, and self-loops have no influence.", "quantifier": "every real weight matrix, directed or not", "why_tests_cant": "must hold for all matrices", "anchors": ["pygsp/graphs/graph.py:Graph.compute_laplacian"]}
{"id": "C11", "title": "The Laplacian is a positive semi-definite quadratic form", "statement": "x' L x = 1/2 sum_ij Wsym[i,j] (x_i - x_j)^2 for the combinatorial Laplacian; it is >= 0 when weights are non-negative.", "quantifier": "every weight matrix, every signal", "why_tests_cant": "universally quantified real identity", "anchors": ["pygsp/graphs/graph.py:Graph.compute_laplacian"]}
{"id": "C12", "title": "Normalized Laplacian", "statement": "For lap_type 'normalized' with non-negative weights, L = I - D^-1/2 Wsym D^-1/2 on vertices of positive degree, rows/columns of disconnected vertices are zero, L is symmetric PSD and every eigenvalue lies in [0, 2].", "quantifier": "every non-negative weight matrix including isolated vertices and self-loops", "why_tests_cant": "spectral bound for all graphs", "anchors": ["pygsp/graphs/graph.py:Graph.compute_laplacian"]}
{"id": "C13", "title": "L = D D' for the differential operator", "statement": "After compute_differential_operator(), D has one column per edge and D D' = L for both Laplacian types, directed or undirected, with or without self-loops.", "quantifier": "every graph with non-negative weights", "why_tests_cant": "global identity over all graphs", "anchors": ["pygsp/graphs/difference.py:DifferenceMixIn.compute_differential_operator"]}
{"id": "C14", "title": "grad, div and dirichlet_energy are mutually consistent", "statement": "grad(x)[e] = sqrt(w_e)(x_t - x_s) (divided by sqrt 2 when directed; degree-scaled when normalized), div is the adjoint of grad, div(grad(x)) = L x and dirichlet_energy(x) = ||grad x||^2.", "quantifier": "every graph with non-negative weights, every signal", "why_tests_cant": "universally quantified identities", "anchors": ["pygsp/graphs/difference.py:DifferenceMixIn.grad", "pygsp/graphs/difference.py:DifferenceMixIn.div", "pygsp/graphs/graph.py:Graph.dirichlet_energy"]}
{"id": "C15", "title": "estimate_lmax('bounds') is a true upper bound", "statement": "For non-negative weights, the value set by estimate_lmax(method='bounds') is at least every eigenvalue of L, for both Laplacian types and including isolated vertices (where one of the candidate bounds is NaN).", "quantifier": "every graph with non-negative weights", "why_tests_cant": "spectral inequality for all graphs, plus the semantics of Python's min with NaN", "anchors": ["pygsp/graphs/graph.py:Graph._get_upper_bound", "pygsp/graphs/graph.py:Graph.estimate_lmax"]}
{"id": "C16", "title": "Signals are length-checked", "statement": "set_signal, dirichlet_energy, grad, gft, igft accept a signal iff its first dimension is n_vertices and otherwise raise ValueError without changing the graph.", "quantifier": "every graph and every signal shape", "why_tests_cant": "all shapes", "anchors": ["pygsp/graphs/graph.py:Graph._check_signal", "pygsp/graphs/graph.py:Graph.set_signal"]}
{"id": "C17", "title": "The weight matrix is immutable", "statement": "No sequence of API calls changes G.W, G.n_vertices or G.n_edges; assigning G.W raises AttributeError.", "quantifier": "every finite history of operations, including failing ones", "why_tests_cant": "ranges over all histories", "anchors": ["pygsp/graphs/graph.py:Graph.W"]}
{"id": "C18", "title": "Cached attributes never go stale", "statement": "After any history, G.L is the Laplacian of (W, lap_type) and every cached value that is readable (G.U, G.e, G.coherence, G.D, G.d, G.dw, G.A, is_directed, is_connected) belongs to the current W and Laplacian type.", "quantifier": "every finite history of operations whose Laplacian types are valid", "why_tests_cant": "cache coherence over all histories", "anchors": ["pygsp/graphs/graph.py:Graph.compute_laplacian", "pygsp/graphs/fourier.py:FourierMixIn.compute_fourier_basis"]}
{"id": "C19", "title": "G.lmax is a number until the Laplacian type is changed", "statement": "On a graph with non-negative weights and at least two vertices, reading G.lmax after any history of calls that keeps the Laplacian type returns a finite number (never None, never an exception, provided ARPACK converges), and that number bounds every eigenvalue of G.L when ARPACK reaches the tolerance of 0.5% it is given (the 1% that the method adds makes up for it). Changing the type after a Lanczos estimate breaks this: G.lmax then returns None (finding).", "quantifier": "every graph with non-negative weights, every finite history, every eigensolver meeting its contract", "why_tests_cant": "depends on the whole call history through two separately reset attributes", "anchors": ["pygsp/graphs/graph.py:Graph.lmax", "pygsp/graphs/graph.py:Graph.estimate_lmax", "pygsp/graphs/graph.py:Graph.compute_laplacian"]}
{"id": "C20", "title": "compute_fourier_basis() makes lmax exact, unless a basis is cached", "statement": "If no complete basis is cached, compute_fourier_basis() sets lmax to e[-1], which is the largest eigenvalue of G.L, and G.lmax returns it. If a sufficient basis is cached the call changes nothing, so an estimate made in between survives and G.lmax can differ from e[-1] (finding, normalized triangle).", "quantifier": "every graph with non-negative weights, every finite history", "why_tests_cant": "history dependent", "anchors": ["pygsp/graphs/fourier.py:FourierMixIn.compute_fourier_basis"]}
{"id": "C21", "title": "What a failing call leaves behind", "statement": "After any history: a failing is_connected, get_edge_list, compute_differential_operator, G.D or G.W assignment leaves every observable attribute unchanged; compute_laplacian with a known type always succeeds and restores a correct G.L. The other failing calls are not atomic: compute_laplacian('foo') keeps lap_type 'foo' with the old L; a failing estimate_lmax(m) or an assertion in compute_fourier_basis makes the same call succeed silently the second time (findings).", "quantifier": "every finite history with failing calls", "why_tests_cant": "ranges over all histories and failure points", "anchors": ["pygsp/graphs/graph.py:Graph.estimate_lmax", "pygsp/graphs/graph.py:Graph.compute_laplacian", "pygsp/graphs/fourier.py:FourierMixIn.compute_fourier_basis"]}
{"id": "C22", "title": "Laplacian of a directed graph ignores orientation", "statement": "Graph(W), Graph(W') and Graph((W+W')/2) have the same Laplacian (both types).", "quantifier": "every matrix", "why_tests_cant": "all matrices", "anchors": ["pygsp/graphs/graph.py:Graph.compute_laplacian"]}
{"id": "C23", "title": "Relabelling equivariance", "statement": "Relabelling the vertices permutes L, degrees and edge set accordingly and leaves n_edges, connectivity, directedness and Dirichlet energy unchanged.", "quantifier": "every graph and permutation", "why_tests_cant": "all permutations", "anchors": ["pygsp/graphs/graph.py:Graph"]}
{"id": "C24", "title": "gft / igft are mutually inverse and preserve energy", "statement": "With a complete Fourier basis igft(gft(x)) = x, gft(igft(y)) = y and ||gft(x)|| = ||x||.", "quantifier": "every graph, every signal", "why_tests_cant": "all signals", "anchors": ["pygsp/graphs/fourier.py:FourierMixIn.gft", "pygsp/graphs/fourier.py:FourierMixIn.igft"]}
{"id": "C25", "title": "compute_fourier_basis on non-negative weights", "statement": "For non-negative weights the internal assertions never fire; e is sorted, e[0] = 0, e >= 0 (<= 2 if normalized) and L = U diag(e) U'.", "quantifier": "every non-negative graph and every eigensolver satisfying its specification", "why_tests_cant": "all graphs", "anchors": ["pygsp/graphs/fourier.py:FourierMixIn.compute_fourier_basis"]}
{"id": "C26", "title": "Coherence", "statement": "G.coherence lies in [1/sqrt N, 1].", "quantifier": "every graph", "why_tests_cant": "all orthonormal bases", "anchors": ["pygsp/graphs/fourier.py:FourierMixIn.compute_fourier_basis", "pygsp/graphs/fourier.py:FourierMixIn.coherence"]}
{"id": "C27", "title": "Zero eigenvalue counts components", "statement": "L x = 0 iff x is constant on each weakly connected component; the number of zero eigenvalues is the number of components; for an undirected graph (N >= 2) e[1] > 0 iff is_connected().", "quantifier": "every non-negative graph", "why_tests_cant": "all graphs", "anchors": ["pygsp/graphs/fourier.py:FourierMixIn.compute_fourier_basis", "pygsp/graphs/graph.py:Graph.is_connected"]}
{"id": "C28", "title": "Exact filtering applies g(L)", "statement": "Filter.filter(s, method='exact') with an (N), (N,Ns) or (N,Ns,1) input returns U g_f(e) U' s for every filter f and signal, an (N,Nf) or (N,Ns,Nf) input (Nf != 1) is synthesized to sum_f U g_f(e) U' s_f, with the documented squeezed output shape; on a graph with non-negative weights and a complete basis it is p_f(L) s for every polynomial p_f equal to g_f on the spectrum, so it does not depend on the eigenvectors the solver chose. Finding: with a partial basis (compute_fourier_basis(k)) it raises AssertionError.", "quantifier": "every graph, history, filter bank, signal array of every shape and size", "why_tests_cant": "shape dispatch depends on Nf and Ns jointly; independence of the eigenbasis quantifies over all solver outputs", "anchors": ["pygsp/filters/filter.py:Filter.filter"]}
{"id": "C29", "title": "synthesize is the adjoint of analyze", "statement": "<analyze(x), y> = <x, synthesize(y)> for both methods, and a single filter is self-adjoint.", "quantifier": "every graph, history, filter bank, method, order and signals", "why_tests_cant": "all signals and banks", "anchors": ["pygsp/filters/filter.py:Filter.analyze", "pygsp/filters/filter.py:Filter.synthesize", "pygsp/filters/filter.py:Filter.filter"]}
{"id": "C30", "title": "Frame bounds", "statement": "A ||x||^2 <= ||analyze(x)||^2 <= B ||x||^2 where (A,B) = estimate_frame_bounds(G.e), and the bounds are attained.", "quantifier": "every graph, filter bank and signal", "why_tests_cant": "an inequality over all signals", "anchors": ["pygsp/filters/filter.py:Filter.estimate_frame_bounds"]}
{"id": "C31", "title": "Tight frames reconstruct", "statement": "If sum_f g_f(e)^2 = c at every graph frequency then synthesize(analyze(x)) = c x for a bank of at least two filters (for one filter: filter twice). Finding: for a bank of one filter synthesize(analyze(x)) raises ValueError because analyze squeezes the last dimension.", "quantifier": "every graph, filter bank, signal", "why_tests_cant": "all", "anchors": ["pygsp/filters/filter.py:Filter.filter"]}
{"id": "C32", "title": "complement makes the frame tight", "statement": "At any array of frequencies, the squared responses of g + g.complement(B) sum to B at every frequency (to their maximum when B is None); evaluation raises ValueError exactly when B is exceeded.", "quantifier": "every filter bank, evaluation points and bound", "why_tests_cant": "all reals", "anchors": ["pygsp/filters/filter.py:Filter.complement"]}
{"id": "C33", "title": "inverse reconstructs", "statement": "g.inverse().synthesize(g.analyze(x)) = x when the squared responses do not vanish together at any graph frequency; at every frequency the inverse kernels are the Moore-Penrose pseudo-inverse of the responses.", "quantifier": "every graph, filter bank, signal", "why_tests_cant": "all", "anchors": ["pygsp/filters/filter.py:Filter.inverse"]}
{"id": "C34", "title": "localize and compute_frame", "statement": "localize(i) is sqrt(N) times column i of g(L); compute_frame() is the (Nf N) x N matrix whose blocks are the g_f(L), provided N != Nf. Finding: when n_filters == n_vertices the identity matrix is taken for a synthesis input and compute_frame returns a wrong matrix.", "quantifier": "every graph, filter bank, N and Nf", "why_tests_cant": "the failure occurs at one coincidence of sizes", "anchors": ["pygsp/filters/filter.py:Filter.localize", "pygsp/filters/filter.py:Filter.compute_frame"]}
{"id": "C35", "title": "cheby_op evaluates the Chebyshev expansion", "statement": "cheby_op(G, c, s) = (c_0/2 I + sum_{1<=k<M} c_k T_k(2L/lmax - I)) s for each filter; fewer than 2 coefficients or an unknown lmax raise TypeError, lmax = 0 raises ZeroDivisionError.", "quantifier": "every graph, number of coefficients, coefficients, signals", "why_tests_cant": "a three-term recurrence of arbitrary length", "anchors": ["pygsp/filters/approximations.py:cheby_op"]}
{"id": "C36", "title": "Chebyshev filtering interpolates, and is exact on polynomials", "statement": "filter(x, method='chebyshev', order=m) = q_f(L) x with q_f the polynomial of degree <= m that equals kernel f at the m+1 Chebyshev points of [0,lmax]; hence if every kernel is a polynomial of degree <= m, both methods return the same array on every input.", "quantifier": "every graph, order, kernel, input", "why_tests_cant": "all orders; needs the discrete orthogonality of cosines", "anchors": ["pygsp/filters/approximations.py:compute_cheby_coeff", "pygsp/filters/approximations.py:cheby_op", "pygsp/filters/filter.py:Filter.filter"]}
{"id": "C37", "title": "Chebyshev filters are K-hop local", "statement": "If two inputs of the same shape agree on all vertices within order hops of v, the Chebyshev-filtered outputs agree at v.", "quantifier": "every graph (directed, negative weights), history, order, bank, input", "why_tests_cant": "all graphs and orders", "anchors": ["pygsp/filters/approximations.py:cheby_op", "pygsp/filters/filter.py:Filter.filter"]}
{"id": "C38", "title": "Filtering is linear and column-wise", "statement": "On arrays of the same shape, filter(c a + d b) = c filter(a) + d filter(b), or the three calls raise the same exception; the j-th output for a 2-D input is the output for column j alone; filtering only fills the caches of the graph.", "quantifier": "every graph, history, bank, method, order, arrays of any shape", "why_tests_cant": "all inputs", "anchors": ["pygsp/filters/filter.py:Filter.filter"]}
{"id": "C39", "title": "Filter-bank algebra", "statement": "(f+g).evaluate stacks rows, len adds, f[i] (negative too, IndexError out of range) and f[a:b] select; (f+g).filter concatenates the outputs and f[i].filter is the i-th output.", "quantifier": "every bank, index, slice, graph, method, input", "why_tests_cant": "all sizes", "anchors": ["pygsp/filters/filter.py:Filter.__add__", "pygsp/filters/filter.py:Filter.__getitem__", "pygsp/filters/filter.py:Filter.filter"]}
{"id": "C40", "title": "Filter argument validation", "statement": "filter accepts exactly the shapes (N,), (N,k), (N,k,1), (N,k,Nf) and returns the documented shape; other shapes raise ValueError (IndexError for a scalar) and leave the graph untouched; unknown methods raise ValueError; analyze and synthesize check the last dimension; the Chebyshev method raises exactly for an empty bank, order 0, lmax = 0 or a raising kernel.", "quantifier": "every shape, method, bank", "why_tests_cant": "all shapes", "anchors": ["pygsp/filters/filter.py:Filter.filter", "pygsp/filters/filter.py:Filter.analyze", "pygsp/filters/filter.py:Filter.synthesize"]}
{"id": "C41", "title": "Held, Papadakis, Regular and Simoncelli banks are Parseval", "statement": "The two kernels of Held, Papadakis, Simoncelli (for every a) and Regular (for every degree) satisfy g_0(x)^2 + g_1(x)^2 = 1 for every x >= 0, evaluation never raises, so analysis followed by synthesis returns the signal. For a > 0 the first kernel of Held, Papadakis and Simoncelli is exactly 1 below a*lmax/2 and 0 beyond its documented cut-off. For Regular: the documented recursion of degree d is implemented by degree d+1 (degree 1 = degree 2), and the first filter is 0 at 0 and 1 at lmax.", "quantifier": "every x >= 0, lmax > 0, a, degree, signal, graph history", "why_tests_cant": "a claim about every real x and every parameter: sampling cannot settle it", "anchors": ["pygsp/filters/held.py", "pygsp/filters/papadakis.py", "pygsp/filters/regular.py", "pygsp/filters/simoncelli.py"]}
{"id": "C42", "title": "Meyer is tight on [0, lmax]", "statement": "With the default scales and Nf >= 2, sum_f g_f(x)^2 = 1 for every x <= lmax, and 0 for every x >= 2 lmax. With explicit scales ValueError unless there are Nf - 1 of them; Nf = 1 makes every evaluation raise IndexError.", "quantifier": "every Nf, lmax > 0, x", "why_tests_cant": "a claim about every real x and every parameter: sampling cannot settle it", "anchors": ["pygsp/filters/meyer.py"]}
{"id": "C43", "title": "SimpleTight is tight on [0, lmax]", "statement": "As C42, for SimpleTight with scales None or [].", "quantifier": "every Nf, lmax > 0, x", "why_tests_cant": "a claim about every real x and every parameter: sampling cannot settle it", "anchors": ["pygsp/filters/simpletight.py"]}
{"id": "C44", "title": "HalfCosine is tight on [0, lmax]", "statement": "sum_f g_f(x)^2 = 9/8 for every 0 <= x <= lmax and every Nf >= 3; Nf <= 2 raises ValueError.", "quantifier": "every Nf, lmax > 0, x", "why_tests_cant": "a claim about every real x and every parameter: sampling cannot settle it", "anchors": ["pygsp/filters/halfcosine.py"]}
{"id": "C45", "title": "Itersine is tight on [0, lmax]", "statement": "sum_f g_f(x)^2 = 1 for every 0 <= x <= lmax, every even overlap >= 2 and Nf >= overlap.", "quantifier": "every Nf, even overlap, lmax > 0, x", "why_tests_cant": "a claim about every real x and every parameter: sampling cannot settle it", "anchors": ["pygsp/filters/itersine.py"]}
{"id": "C46", "title": "Heat filter", "statement": "Filter i is exp(-scale_i x / lmax): in (0, 1], 1 at 0, non-increasing. Numbers that rounding made negative are clipped to 1. normalize=True gives every kernel unit norm on the spectrum. In the vertex domain: semigroup in the scale, energy contraction, identity at scale 0, and for the combinatorial Laplacian conservation of the sum and the maximum principle.", "quantifier": "every graph with non-negative weights, history, signal, scale list", "why_tests_cant": "a claim about every real x and every parameter: sampling cannot settle it", "anchors": ["pygsp/filters/heat.py"]}
{"id": "C47", "title": "Wave filter", "statement": "Which (time, speed) lists are accepted (ValueError for speed >= 2 or incompatible lengths) and how many filters they give; |g| <= 1, 1 at time 0 and at frequency 0; three consecutive times satisfy the discretised wave equation y(t+1) - 2y(t) + y(t-1) = -c^2/lmax L y(t) in the vertex domain. A speed <= -2 is accepted although it yields NaN.", "quantifier": "every time list, speed, graph history, signal", "why_tests_cant": "a claim about every real x and every parameter: sampling cannot settle it", "anchors": ["pygsp/filters/wave.py"]}
{"id": "C48", "title": "Expwin", "statement": "The low-pass and high-pass responses are in [0,1], are 1 at distance 1/2 inside the band, 1/2 at the band edge, 0 at distance 1/2 outside; the band-pass is their product; low-pass and high-pass with the same cut sum to one; the low-pass is non-increasing and the high-pass non-decreasing.", "quantifier": "every x, slope, band edges", "why_tests_cant": "a claim about every real x and every parameter: sampling cannot settle it", "anchors": ["pygsp/filters/expwin.py"]}
{"id": "C49", "title": "Rectangular", "statement": "The response is 1 on [band_min*lmax, band_max*lmax] and 0 elsewhere (None = unbounded); filtering with it is an orthogonal projection: applying it twice is applying it once, and the removed part is orthogonal to what is kept.", "quantifier": "every x, band, graph history, signal", "why_tests_cant": "a claim about every real x and every parameter: sampling cannot settle it", "anchors": ["pygsp/filters/rectangular.py"]}
{"id": "C50", "title": "MexicanHat and Abspline", "statement": "MexicanHat: ValueError unless len(scales) = Nf - 1; the scaling function is positive, at most 1.2/e, reached at 0; wavelets are 0 at 0 and at most 1/e (times sqrt(scale) when normalised), reached at 1/scale. Abspline: the kernel is the documented monic/spline/decay function, continuously differentiable at 1 and 2, non-negative, maximal at 2 - 1/sqrt 3; the scaling function has the maximum of the kernel as its value at 0; too few scales raise IndexError only at evaluation.", "quantifier": "every x, scales, Nf, lpfactor, lmax", "why_tests_cant": "a claim about every real x and every parameter: sampling cannot settle it", "anchors": ["pygsp/filters/mexicanhat.py", "pygsp/filters/abspline.py"]}
{"id": "C51", "title": "Gabor and Modulation", "statement": "Both accept exactly one mother filter on the same graph. Gabor: filter k is the mother kernel centred on eigenvalue k, and filtering returns sum_w g_{v,k}(w) x(w) whatever the method. Modulation: with distinct eigenvalues filter k at eigenvalue l is sqrt(N) <u_l, u_k * igft(g)>; a constant eigenvector gives back the mother kernel; repeated eigenvalues get equal values (violation); the windowed transform has entries sqrt(N) <x * T_i g, u_k> and energy N sum_v x_v^2 ||T_v g||^2.", "quantifier": "every mother kernel, signal, graph history", "why_tests_cant": "a claim about every real x and every parameter: sampling cannot settle it", "anchors": ["pygsp/filters/modulation.py", "pygsp/filters/gabor.py"]}
{"id": "C53", "title": "symmetrize", "statement": "every method returns a symmetric matrix, is the identity on symmetric inputs (non-negative for tril/triu), matches its documentation; non-square or unknown method raise ValueError.", "quantifier": "every matrix and method", "why_tests_cant": "all", "anchors": ["pygsp/utils.py:symmetrize"]}
{"id": "C54", "title": "distanz is the Euclidean distance between columns", "statement": "distanz(x, y)[i, j] is the Euclidean distance between column i of x and column j of y; a 1-D array is one row; y defaults to x. Different numbers of rows raise ValueError. With one argument the result is a metric: non-negative, zero on the diagonal and only between equal columns, symmetric, satisfying the triangle inequality.", "quantifier": "every pair of matrices of every shape", "why_tests_cant": "a claim over every matrix of every size; the code computes the expansion |a|²+|b|²-2ab, not the definition", "anchors": ["pygsp/utils.py:distanz"]}
{"id": "C55", "title": "resistance_distance is the effective resistance", "statement": "For every connected graph with non-negative weights, whatever was called on it before, if its Laplacian is combinatorial then resistance_distance(G)[i, j] is the effective resistance between i and j: a potential with unit current from i to j exists, and every such potential has this difference between i and j. It is a metric, and at most 1/w for an edge of weight w. A graph with another Laplacian raises ValueError. For any matrix the result is symmetric with zero diagonal.", "quantifier": "every connected weighted graph, every call history, every pair of vertices", "why_tests_cant": "quantifies over all graphs and all potentials; the physical meaning of a pseudo-inverse formula cannot be sampled", "anchors": ["pygsp/utils.py:resistance_distance"]}
{"id": "C56", "title": "rescale_center", "statement": "When some row of the data is not constant, rescale_center returns an array whose rows sum to zero, whose largest entry is exactly 1, that is a positive multiple of the centred data, and on which rescale_center is the identity. An empty array raises ValueError; when all rows are constant the result is NaN (0/0).", "quantifier": "every real matrix", "why_tests_cant": "for every matrix of every shape", "anchors": ["pygsp/utils.py:rescale_center"]}
{"id": "C57", "title": "compute_log_scales", "statement": "N scales in geometric progression, from t2/lmin down to t1/lmax, strictly decreasing when t1/lmax < t2/lmin.", "quantifier": "every lmin, lmax, t1, t2 > 0 and N", "why_tests_cant": "a claim about every real x and every parameter: sampling cannot settle it", "anchors": ["pygsp/utils.py:compute_log_scales"]}
{"id": "C58", "title": "regression_tikhonov with tau = 0 interpolates harmonically", "statement": "With tau <= 0 and float measurements (one column, or each of two or more columns; a 2-D array of one column works only when exactly one vertex is not measured), on every graph with non-negative weights where every vertex is linked to a measured one: the result equals the measurements where the mask is true, is harmonic elsewhere (combinatorial Laplacian), is the unique minimiser of xᵀLx among the signals that agree with the measurements, and lies between the smallest and largest measurement. With any Laplacian in any state the result, when there is one, minimises xᵀLx subject to the measurements. Unmeasured values of y are never used. A mask of the wrong size raises ValueError; a component without measurement gives a singular system. Documented violation: integer measurements are silently truncated towards zero.", "quantifier": "every graph, call history, mask, measurements", "why_tests_cant": "all signals, all masks, all competitors", "anchors": ["pygsp/learning.py:regression_tikhonov"]}
{"id": "C59", "title": "regression_tikhonov with tau > 0 minimises the penalised objective", "statement": "With tau > 0 the result (each column of it, for several columns of measurements) minimises the sum over measured vertices of (x_v - y_v)² plus tau xᵀLx over all signals, for any Laplacian and call history on a graph with non-negative weights. With the combinatorial Laplacian and every vertex linked to a measured one, the minimiser is unique and within the range of the measurements. A mask of the wrong size raises IndexError.", "quantifier": "every graph, call history, mask, measurements, tau > 0, exact conjugate gradient (C146 covers its tolerance)", "why_tests_cant": "the competitor ranges over all signals", "anchors": ["pygsp/learning.py:regression_tikhonov"]}
{"id": "C60", "title": "classification_tikhonov logits", "statement": "For non-negative integer labels, the logits have one column per class up to the largest measured label, the one-hot rows are encoded exactly, and the result of classification_tikhonov (combinatorial Laplacian, every vertex linked to a measured one) has every entry in [0, 1] and every row summing to one, for tau = 0 (at least two classes or exactly one unknown vertex) and tau > 0. Documented violations: negative labels alias other classes silently; a single class with two or more unknown vertices raises ValueError when tau = 0.", "quantifier": "every graph, labelling, mask, tau", "why_tests_cant": "all labellings and masks", "anchors": ["pygsp/learning.py:_to_logits", "pygsp/learning.py:classification_tikhonov"]}
{"id": "C61", "title": "classification_tikhonov_simplex: projection, gradient and step", "statement": "The projection used by classification_tikhonov_simplex returns, for every row with at least one class, the unique closest probability vector (identity on probability vectors). The functions handed to the solver are the documented objective ‖MX-Y‖² + tau tr(XᵀLX) and its gradient. With the step 0.5/(1 + tau lmax) and lmax an upper bound of the spectrum, a step from any point gives probability vectors and does not increase the objective from a feasible point; a fixed point is a minimiser over all matrices with probability rows; k iterations are within (1+tau lmax)‖Z-X0‖²/k of the best. tau <= 0 raises ValueError; the starting point is the one-hot encoding of the measured labels and zero elsewhere.", "quantifier": "every row of every size; every graph, call history, mask, tau > 0, iterate and number of iterations", "why_tests_cant": "optimality over a continuum and convergence for all iteration counts", "anchors": ["pygsp/learning.py:classification_tikhonov_simplex"]}
{"id": "C62", "title": "Kron reduction keeps energies, resistances and connectivity", "statement": "kron_reduction(G, ind) of an undirected graph with non-negative weights and combinatorial Laplacian, when every eliminated vertex is linked to a kept one, is a valid undirected graph with non-negative weights and no self-loop on the kept vertices, in the given order and with their coordinates. For every signal x on the kept vertices, its smoothness on the reduced graph is the smallest smoothness of a signal of G that equals x on the kept vertices (and it is attained). Effective resistances and connectivity between kept vertices are those of G; an edge between two kept vertices does not lose weight; reducing in two steps gives the same weights as reducing once. A Laplacian that is not combinatorial or a directed graph raise NotImplementedError. A graph without coords raises an exception.", "quantifier": "every graph, history of calls on it, list of at least two distinct kept vertices that is not all of them", "why_tests_cant": "a global statement (minimum over all signals, all pairs of vertices) for every graph", "anchors": ["pygsp/reduction.py:kron_reduction"]}
{"id": "C63", "title": "interpolate reproduces the samples with the smallest energy", "statement": "interpolate(G, f, keep, reg_eps=eps, method='exact') with eps > 0, for one signal, returns an (N,1) column that equals f at the kept vertices and, among all signals that do, uniquely minimises xᵀ(L + eps I)x; the order is irrelevant. With the combinatorial Laplacian samples in [lo,hi], lo <= 0 <= hi, give values in [lo,hi]; the constant signal is strictly damped at every other vertex. With the default Chebyshev method and lmax an upper bound of the spectrum the relative error with respect to the exact interpolation is at most 1/T_{order+1}(1 + 2 eps/lmax). Several signals are interpolated one by one but come back stacked in an (N*m,1) column. A graph without attribute mr raises AttributeError, a signal of the wrong length ValueError.", "quantifier": "every graph with non-negative weights, history, list of distinct kept vertices (not all), signal, eps > 0, order >= 1", "why_tests_cant": "optimality over all signals and an error bound for all orders", "anchors": ["pygsp/reduction.py:interpolate"]}
{"id": "C64", "title": "Laplacian pyramid reconstructs perfectly", "statement": "For a signal given as an (N,m) array, whenever pyramid_analysis succeeds, pyramid_synthesis of the coarsest approximation and the prediction errors, on the levels left by the analysis and with the same interpolation (method exact, or the same Chebyshev order), succeeds and returns exactly the list of the approximations of the analysis, the finest being the signal; there are as many errors as levels. With method='exact', for every list of levels (non-negative weights, any history, complete basis or none, distinct kept vertices, not all) each of which has as many kept vertices as the next graph has vertices, one or as many kernels as levels, the analysis of a column signal always succeeds and the synthesis is perfect even if the graphs were used in between. Violations: with the defaults (Chebyshev, order=100 in the analysis but 30 in the synthesis) there is a graph and a signal that is not reconstructed; a 1-D signal comes back as an (N,N) array whose rows are the signal; of several signals only the first is decomposed.", "quantifier": "every number of levels, graph, history, kernel, signal", "why_tests_cant": "every depth and graph; the defect of the default orders needs exact arithmetic to be separated from rounding", "anchors": ["pygsp/reduction.py:pyramid_analysis", "pygsp/reduction.py:pyramid_synthesis", "pygsp/reduction.py:interpolate"]}
{"id": "C65", "title": "graph_multiresolution: every level is a smaller, electrically equivalent graph", "statement": "When reduction.graph_multiresolution(G, levels) returns, the list has levels+1 graphs, starts with G, and each following graph has at least two and strictly fewer vertices; its mr['idx'] is an increasing selection of vertices of the previous graph that contains vertex 0, and mr['orig_idx'] is the composition of these selections, i.e. an increasing list of vertices of G. With sparsify=False, for a connected undirected graph with non-negative weights and combinatorial Laplacian, every graph is undirected, connected, non-negative, carries the coordinates of the vertices orig_idx and has the effective resistances of G between them. With compute_full_eigen=True a level succeeds as soon as the last eigenvector, oriented by its first entry, is non-negative at a second vertex and negative somewhere; with compute_full_eigen=False the same holds, for a fresh graph of at least three vertices, for the vector that scipy's eigs returns, while a graph of two vertices raises TypeError. Deviations that are proved too: the last column of a cached basis G.U is multiplied in place by the sign of its first entry (and becomes zero when that entry is zero, e.g. on a weighted triangle), also when the call raises later; with sparsify=True (the default) a level of three or four vertices raises ValueError, and a sparsified graph has no coordinates, so that it cannot be reduced again.", "quantifier": "every graph, number of levels, options, previous history of calls, solver outcome and random number", "why_tests_cant": "the chain of reductions has any length and depends on eigenvectors of every graph; a test sees a few graphs and solver versions", "anchors": ["pygsp/reduction.py:graph_multiresolution", "pygsp/reduction.py:kron_reduction"]}
{"id": "C66", "title": "graph_sparsify: an unbiased spectral sparsifier", "statement": "graph_sparsify(G, epsilon) keeps a subset of the edges (with reported weight at least 1e-10) and returns an undirected graph with non-negative weights and no self-loop. For a connected undirected loop-free graph with weights at least 1e-10 the weighted sum of effective resistances of the result, sum over edges of w'_e R_e, is n-1 exactly, as for G (Foster), the call never fails for at least three vertices, 1/sqrt(n) <= epsilon < 1 and maxiter >= 1, it returns a disconnected graph only if all maxiter attempts gave disconnected graphs, and with independent draws by the probabilities w_e R_e/(n-1) the expected weight of every edge is its original weight. A non-combinatorial Laplacian gives NotImplementedError, epsilon outside [1/sqrt(n), 1) ValueError. Deviations that are proved too: on two vertices every call raises ValueError; for a matrix argument the result is minus a weight matrix (zero diagonal, negative total), not a Laplacian.", "quantifier": "every graph, epsilon, maxiter and outcome of the random number generator; the expectation ranges over all sequences of draws", "why_tests_cant": "the result is random: conservation for every outcome and an exact expectation cannot be established by sampling", "anchors": ["pygsp/reduction.py:graph_sparsify", "pygsp/utils.py:resistance_distance"]}
{"id": "C67", "title": "Path(N) is the path", "statement": "Path(N) has weight one exactly between the vertices i and i+1 (only from i to i+1 with directed=True), N-1 edges, and is undirected and connected (directed=True: every vertex is reachable from the first one and the graph is directed as soon as N >= 2). Path(0) raises ValueError.", "quantifier": "every N, both values of directed, both Laplacian types", "why_tests_cant": "holds for every size; tests only look at one or two sizes", "anchors": ["pygsp/graphs/path.py:Path.__init__"]}
{"id": "C68", "title": "Ring(N, k) connects every vertex to its k nearest neighbours on each side", "statement": "For N >= 3 and 2k < N, Ring(N, k) has weight one exactly between vertices at circular distance between 1 and k; it is undirected, without self-loops, every vertex has exactly 2k neighbours, it has N*k edges and it is connected when k >= 1. It raises ValueError exactly when N < 3 or 2k > N. The boundary 2k = N is accepted but wrong (proved): the graph has a self-loop on vertex 0, is directed, and opposite vertices other than 0 are not connected.", "quantifier": "every N and k", "why_tests_cant": "modular arithmetic over all sizes; the boundary case 2k = N is not tested", "anchors": ["pygsp/graphs/ring.py:Ring.__init__"]}
{"id": "C69", "title": "Torus(Nv, Mv) is the Cartesian product of two cycles", "statement": "The vertex b*Nv + a is the point (a, b); the weights are those of the Cartesian product of a cycle of Nv and a cycle of Mv vertices; the graph is undirected and connected, every vertex has weighted degree four, and for Nv, Mv >= 3 the weights are zero or one, there are no self-loops, each vertex has exactly four neighbours and there are 2*Nv*Mv edges.", "quantifier": "every Nv, Mv >= 1", "why_tests_cant": "all sizes; tests only look at one size", "anchors": ["pygsp/graphs/torus.py:Torus.__init__"]}
{"id": "C70", "title": "Grid2d(N1, N2, diagonal) is the grid", "statement": "The vertex r*N2 + c is in row r and column c; the weight is one between horizontal and vertical neighbours, diagonal between diagonal neighbours (when it is positive; a negative value is silently ignored, proved), zero elsewhere; the graph is undirected, connected, without self-loops and has N1(N2-1) + (N1-1)N2 edges, plus 2(N1-1)(N2-1) when diagonal is positive. ValueError is raised exactly for an empty grid and for N2 = 1 (although a single row N1 = 1 is accepted).", "quantifier": "every N1, N2 and diagonal", "why_tests_cant": "all sizes; the wrap-around of the diagonals of the matrix has to be excluded for every column", "anchors": ["pygsp/graphs/grid2d.py:Grid2d.__init__"]}
{"id": "C71", "title": "Comet(N, k) and Star(N)", "statement": "Comet(N, k) has weight one exactly between the centre 0 and 1..k and between consecutive vertices of the tail k..N-1; it is an undirected connected graph with N-1 edges (a tree) without self-loops and the centre has exactly k neighbours; it raises ValueError exactly when k > N-1. The coordinates are pairwise different, the neighbours of the centre are on the unit circle, the tail continues from (1, 0) by unit steps. Star(N) has weight one exactly between the centre and every other vertex.", "quantifier": "every N and k", "why_tests_cant": "all sizes", "anchors": ["pygsp/graphs/comet.py:Comet.__init__", "pygsp/graphs/star.py:Star.__init__"]}
{"id": "C72", "title": "FullConnected(N) is the complete graph", "statement": "FullConnected(N) has weight one between any two different vertices and no self-loops; it is undirected, connected and has N(N-1)/2 edges.", "quantifier": "every N", "why_tests_cant": "all sizes", "anchors": ["pygsp/graphs/fullconnected.py:FullConnected.__init__"]}
{"id": "C73", "title": "LineGraph(G) is the line graph of G", "statement": "For a graph with non-negative weights and no self-loops, the vertices of LineGraph(G) are the edges of G in the order of get_edge_list(); two different edges are connected, with weight one, exactly when they share an end, whatever the weights of G and its Laplacian type; each edge is placed at the middle of its ends; the line graph is undirected, connected when G is, and has sum of d(d-1)/2 edges for an undirected G. A self-loop of G is instead an isolated vertex with a self-loop of weight -1 (violation of the documentation).", "quantifier": "every graph with non-negative weights, any weights, directed or not", "why_tests_cant": "all graphs", "anchors": ["pygsp/graphs/linegraph.py:LineGraph.__init__"]}
{"id": "C74", "title": "StochasticBlockModel and ErdosRenyi sample each pair once with the right probability", "statement": "Every eligible pair of vertices (unordered when undirected, different unless self_loops) is decided by its own random number: connected with weight one exactly when it is smaller than the probability of its two blocks. The graph is undirected unless directed=True, without self-loops unless self_loops=True, and with connected=True it is the first connected sample; ValueError after n_try unconnected samples or for probabilities outside [0,1]. p (in the blocks) and q (between) fill the probabilities. Violations: an integer matrix q truncates p to 0, and the caller's q is overwritten.", "quantifier": "every N, k, p, q, M, labels, options and every sequence of random numbers", "why_tests_cant": "all sequences of random numbers and numbers of tries", "anchors": ["pygsp/graphs/stochasticblockmodel.py:StochasticBlockModel.__init__", "pygsp/graphs/erdosrenyi.py:ErdosRenyi.__init__"]}
{"id": "C75", "title": "BarabasiAlbert grows by preferential attachment", "statement": "BarabasiAlbert(N, m0, m) with 1 <= m0, m <= m0 is undirected, unweighted, without self-loops, has exactly m (N - m0) edges, none between the m0 first vertices, and each later vertex has exactly m edges to earlier ones, drawn with probabilities proportional to one plus their degree at that time; it is connected when m = m0 < N. ValueError if m > m0, or m0 = 0.", "quantifier": "every N, m0, m and all random choices allowed by rng.choice(replace=False)", "why_tests_cant": "all random choices and all sizes", "anchors": ["pygsp/graphs/barabasialbert.py:BarabasiAlbert.__init__"]}
{"id": "C76", "title": "RandomRegular returns a simple k-regular graph or an empty one", "statement": "Whatever the random numbers are, when RandomRegular(N, k, max_iter) returns, the graph is undirected, unweighted, without self-loops, and either every vertex has exactly k neighbours (N k / 2 edges) or there is no edge at all; ValueError if N k is odd; no edge if max_iter <= 1 or k >= N; is_regular never logs a warning, even for the graph without edges. Violations: the constructor may never return (RandomRegular(4, 2)), and the restart raises ValueError with a SciPy that rejects floating-point indices.", "quantifier": "every N, k, max_iter and every sequence of random numbers", "why_tests_cant": "all random sequences, including unlucky ones; non-termination is not observable by a test", "anchors": ["pygsp/graphs/randomregular.py:RandomRegular.__init__", "pygsp/graphs/randomregular.py:RandomRegular.is_regular"]}
{"id": "C77", "title": "LowStretchTree is a spanning tree of the grid up to directions and self-loops", "statement": "For every k >= 1, ignoring directions and self-loops, the edges of LowStretchTree(k) form a tree (connected, 4^k - 1 pairs) on 4^k vertices, which are placed one at every point of the 2^k by 2^k grid, and all edges connect neighbours on the grid; there are 2 (4^k - 1) unit weights. Violation: in every group of four vertices one arc is missing and is a self-loop instead, so the graph is directed and not connected.", "quantifier": "every k >= 1", "why_tests_cant": "recursive construction, all depths", "anchors": ["pygsp/graphs/lowstretchtree.py:LowStretchTree.__init__"]}
{"id": "C78", "title": "Community: blocks of labels, exact numbers of edges inside and between the communities", "statement": "Whenever Community(N, ...) returns, Nc, min_comm, world_density and epsilon are the given ones or the documented defaults; info['node_com'] is sorted, takes every value 0..Nc-1, info['comm_sizes'] counts it, equals comm_sizes if given, and every community has at least min_comm vertices otherwise. The graph is undirected, with weights 0 and 1, without self-loops. The number of edges between different communities is exactly floor(world_density * number of pairs of vertices in different communities), with either sampling method; with comm_density, the number of edges inside a community of c vertices is exactly floor(comm_density*c(c-1)/2); otherwise (no k_neigh) two vertices of a community are connected exactly when their distance is at most epsilon. Every vertex lies in the open disk of radius sqrt(c) around the centre of its community, the centres being equally spaced on the circle of radius size_ratio*sqrt(N). For consistent arguments the constructor returns as soon as the generator eventually draws every pair; otherwise it raises ValueError, or NotImplementedError for min_deg. FINDINGS: with k_neigh there is no edge at all inside the communities (a lazy map is never evaluated); a community of size zero raises IndexError; Community(1) raises ZeroDivisionError.", "quantifier": "every N, all combinations of arguments, every outcome of the random generator, every answer of the kd-tree meeting its documentation, any number of rejections", "why_tests_cant": "Tests look at a few seeds; the claim is about all random outcomes, arguments and sizes.", "anchors": ["pygsp/graphs/community.py:Community.__init__"]}
{"id": "C79", "title": "NNGraph connects every point to its k nearest neighbours (or to the points within epsilon) with weight exp(−d²/σ)", "statement": "For distinct points and any valid nearest-neighbour search (each row of the tree's answer lists the k+1 closest points, ties broken at will), NNGraph(Xin, 'knn', k=k) gives every vertex a set of exactly k nearest other points, and G.W is built from a(i,j) = exp(−d(i,j)²/σ) on that set: (a+aᵀ)/2 for symmetrize_type 'average', a(i,j) as soon as one is a neighbour of the other for 'maximum' and 'fill', one triangle mirrored for 'tril' and 'triu'; σ is the one given or else the mean distance to the selected neighbours. The graph is undirected, without self-loops, with weights in [0,1], and for average, maximum and fill every vertex has at least k neighbours. With NNtype='radius' two vertices are connected exactly when they are different and at distance at most epsilon, σ being the mean of those distances, and it is one and the same for every symmetrization. With center=True the graph does not change when all the points are translated, with rescale=True also not when they are scaled, and the rescaled points lie within a ball of radius N^(1/min(d,3))/10. The constructor always succeeds for 1 ≤ k < N distinct points, nonzero sigma and known names; k ≥ N is a ValueError (also for 'radius'), an unknown NNtype a ValueError, an unknown distance a KeyError, a Minkowski order below 1 a ValueError, no pair within epsilon (without sigma) a ValueError. FINDINGS: coincident points may get self-loops (the first search result is dropped as if it were the point itself); with center=False, rescale=True the caller's own Xin array is rescaled in place.", "quantifier": "every number of points and dimension, every point cloud of reals, NNtype, center, rescale, k, sigma, epsilon, symmetrize_type, dist_type and order, every answer of the nearest-neighbour search that meets its documentation", "why_tests_cant": "A test tries a few clouds with scipy's own tie-breaking; the property is about every cloud, distance and tie-breaking.", "anchors": ["pygsp/graphs/nngraphs/nngraph.py:NNGraph.__init__", "pygsp/graphs/nngraphs/nngraph.py:NNGraph._get_extra_repr", "pygsp/utils.py:symmetrize"]}
{"id": "C80", "title": "RandomRing connects each vertex to the next one around the circle with weight (2π/N)/angle", "statement": "RandomRing(angles=a) (or the N angles the generator draws) with at least three distinct angles in [0, 2π) sorts them and succeeds: vertices i and j are connected exactly when one follows the other around the circle, the last being followed by the first, with weight (2π/N) divided by the anticlockwise angle between them; the coordinates are (cos, sin) of the sorted angles. The graph is undirected, connected, without self-loops, has N edges, two neighbours per vertex and positive weights whose reciprocals around the circle add up to N. The order in which the angles are given is irrelevant; equally spaced angles give exactly Ring(N). Angles out of [0, 2π) or fewer than three vertices raise ValueError. FINDINGS: two equal angles raise AssertionError (for up to 100000 vertices); an array given as angles is sorted in place, so the caller's array changes.", "quantifier": "every list of angles (any length, any order), every outcome of the random generator, both Laplacian types", "why_tests_cant": "A test samples a few seeds; the property is about all lists of real angles and all random draws.", "anchors": ["pygsp/graphs/randomring.py:RandomRing.__init__", "pygsp/utils.py:symmetrize"]}
{"id": "C81", "title": "Breaking and joining multi-dimensional signals is a round trip for separable names and at most ten columns", "statement": "When a graph is exported, a two-dimensional signal s is replaced by its columns s_0, s_1, …; when a graph is imported, columns whose names agree up to the last underscore are put together again. If the signal names are separable (no name extends the name of a two-dimensional signal by an underscore and a suffix free of underscores, and no two one-dimensional signals share such a prefix) and every two-dimensional signal has at least two columns, then joining the broken signals gives back exactly the original names, every one-dimensional signal unchanged, and every two-dimensional signal with the same columns, in the lexicographic order of their decimal numbers — hence unchanged when there are at most ten columns. FINDINGS: with eleven or more (distinct) columns the columns come back permuted; a signal with one column comes back as the one-dimensional signal s_0; a signal without columns is lost; with signals x and x_1 both are damaged; two independent signals a_b and a_c are merged into one two-dimensional signal a; the export replaces the signals of the exported graph itself.", "quantifier": "every dictionary of signals: any names, any numbers of columns, any values", "why_tests_cant": "Tests use two or three signals with two columns and plain names; the claim is about all names and all numbers of columns.", "anchors": ["pygsp/graphs/_io.py:IOMixIn._break_signals", "pygsp/graphs/_io.py:IOMixIn._join_signals"]}
{"id": "C82", "title": "from_networkx(G.to_networkx()) has the weights and signals of G; from_networkx sums what the graph says", "statement": "For every graph with at least one vertex and separable signals whose two-dimensional ones have at least two columns, to_networkx() succeeds, gives a DiGraph exactly when G is directed, with one node per vertex, and from_networkx of the result succeeds with G'.W = G.W entry by entry (self-loops and negative weights included), every one-dimensional signal unchanged, every two-dimensional signal unchanged up to the order of C81, and no other signal. For every NetworkX graph with nodes (multigraphs included), from_networkx gives W(i,j) = the sum of the weights of the edges from i to j (in an undirected graph: between i and j, a self-loop once), and for every node attribute the signal with the attribute at the nodes that have it and NaN elsewhere.", "quantifier": "every built graph, every dictionary of signals; every NetworkX graph with numeric attributes", "why_tests_cant": "Tests convert a few small graphs; the claim is about all graphs.", "anchors": ["pygsp/graphs/_io.py:IOMixIn.to_networkx", "pygsp/graphs/_io.py:IOMixIn.from_networkx"]}
{"id": "C83", "title": "from_graphtool(G.to_graphtool()) has the weights and signals of G when the last vertex has an edge", "statement": "For every graph whose last vertex has an edge and separable signals with two columns or more, to_graphtool() succeeds with as many vertices as G, and from_graphtool of the result succeeds with G'.W = G.W and the same signals up to the order of C81; for undirected graphs with self-loops this needs a version of graph-tool that counts a self-loop once. FINDING: graph-tool only creates the vertices up to the last one that has an edge, so trailing isolated vertices are dropped from the exported graph, and the export of such a graph (two vertices or more) that has a signal raises ValueError.", "quantifier": "every built graph, every dictionary of signals, every factor with which graph-tool counts undirected self-loops", "why_tests_cant": "Tests have no isolated last vertex; the claim is about all graphs.", "anchors": ["pygsp/graphs/_io.py:IOMixIn.to_graphtool", "pygsp/graphs/_io.py:IOMixIn.from_graphtool"]}
{"id": "C84", "title": "load and save: format from the extension, backend by availability, round trip, errors leave the graph alone", "statement": "Without fmt, load and save of dir/stem.ext behave as with fmt=ext (the last dot of the file name decides, leading dots not counting); a file name without such a dot raises ValueError. A format other than graphml, gml, gexf or an unknown backend raises ValueError. Without backend, NetworkX is used if it can be imported, else graph-tool, else ImportError; errors other than ImportError propagate. In all the failing cases above G.signals is untouched. If NetworkX reads what it wrote, load(save(G)) has the weights of G and its signals as in C82. FINDING: save replaces the two-dimensional signals of the graph it saves by their columns.", "quantifier": "every path, format, backend, availability of the libraries, graph, dictionary of signals, and every reader and writer", "why_tests_cant": "Tests use one environment, in which both libraries are installed, and a few names.", "anchors": ["pygsp/graphs/_io.py:IOMixIn.load", "pygsp/graphs/_io.py:IOMixIn.save"]}
{"id": "C85", "title": "set_coordinates: accepted arrays, exact line, ring, eigenmap and community positions, spring invariants", "statement": "set_coordinates(array) succeeds exactly when the shape of the array, without its dimensions of size one, is (N,), (N,2) or (N,3); an (N,2), (N,3) or (N,) array (N ≥ 2) becomes G.coords unchanged; anything else raises and leaves the graph alone. line1D puts vertex i at i, line2D at (i,0), ring2D at angle 2πi/N on the unit circle (all distinct), random2D/3D in the unit square or cube. laplacian_eigenmap2D/3D, after any history of calls, succeeds for N large enough with orthonormal columns that are eigenvectors of L in ascending order of eigenvalues, orthogonal to the kernel vector — so centred when the graph is connected with a combinatorial Laplacian. community2D puts every vertex in the disk of radius √size around the centre of its community, the centres equally spaced on the circle of radius world_rad (default √N). The spring layout with fixed vertices (and k ≠ 0; k may be None unless the greatest given coordinate is 0) leaves them exactly where they are and moves no vertex farther than 0.05·I(I+3)/(I+1) in I iterations; of two vertices, the first fixed, the second moves in one iteration along the line through both: away from the first if they are not linked or are closer than k, towards it if they are linked and farther apart than k; without fixed vertices its barycentre is center and its greatest coordinate relative to it is scale. An unknown name raises ValueError. FINDINGS: no array sets the coordinates of a one-vertex graph, whose spring coordinates are NaN; spring coordinates are not within (−scale, scale); when k is None and the greatest given coordinate is 0 the vertices that are not fixed get NaN coordinates, and when it is negative linked vertices repel each other at every distance; laplacian_eigenmap leaves a partial Fourier basis behind, after which igft always raises ValueError, and raises TypeError on too small graphs; community2D without info raises AttributeError, without comm_sizes NameError, and without node_com KeyError after overwriting the coordinates.", "quantifier": "every graph, history of calls, array of any shape, layout name, parameters of the spring layout, and outcome of the random generator and eigensolvers", "why_tests_cant": "Tests call each layout once on one graph; the claim is about all graphs, all histories, all random draws and all iteration counts.", "anchors": ["pygsp/graphs/_layout.py:LayoutMixIn.set_coordinates", "pygsp/graphs/_layout.py:LayoutMixIn._fruchterman_reingold", "pygsp/graphs/_layout.py:_sparse_fruchterman_reingold", "pygsp/graphs/_layout.py:_rescale_layout"]}
{"id": "C86", "title": "features: Tig, its norms and the spectrogram are diagonal entries of squared polynomials of L", "statement": "compute_tig(g) of a filter with one kernel is the N×N matrix q(L), where q is the polynomial of degree at most 30 that interpolates the kernel at the 31 Chebyshev points of [0, lmax] (the kernel itself if it is a polynomial of degree ≤ 30); compute_norm_tig(g)(i) = √(q²(L))(i,i); compute_spectrogram(G, atom, M)(i,j) = (q_j²(L))(i,i) = Σ_k q_j(e_k)² U(i,k)² where q_j interpolates x ↦ atom(x − j·lmax/(M−1)) (default atom exp(−M(x/lmax)²)), so column j sums to Σ_k q_j(e_k)². compute_avg_adj_deg(G)(i) = (number of vertices reachable from i in exactly two steps)/(1 + number of neighbours). FINDINGS: this is not the documented average of the degrees of i and its neighbours (it is 1 on every complete graph with at least three vertices); compute_tig and compute_norm_tig of a bank of Nf ≥ 2 filters return Nf copies of the array of all the filters; the argument method is ignored; G.plot_spectrogram() always raises (ValueError if pyqtgraph is installed).", "quantifier": "every graph with two vertices or more, history of calls, kernel, number of shifts", "why_tests_cant": "Tests compare a few values on one graph.", "anchors": ["pygsp/features.py:compute_avg_adj_deg", "pygsp/features.py:compute_tig", "pygsp/features.py:compute_norm_tig", "pygsp/features.py:compute_spectrogram", "pygsp/plotting.py:_plot_spectrogram", "pygsp/utils.py:filterbank_handler"]}
{"id": "C87", "title": "The Fourier basis of Path is the DCT", "statement": "For every N >= 1, compute_fourier_basis() on Path(N) with the combinatorial Laplacian succeeds after any history of calls on the graph; the k-th graph frequency is exactly 2 - 2 cos(pi k / N), and the k-th Fourier mode is the k-th vector of the orthonormal DCT-II, sqrt((1 or 2)/N) cos(pi k (2 i + 1) / (2 N)), up to its sign.", "quantifier": "all N >= 1, all histories of calls, all eigensolvers that return an orthonormal eigenbasis", "why_tests_cant": "an identity between transcendental functions and eigenvectors for every N; a test compares a few N numerically", "anchors": ["pygsp/graphs/path.py:Path.__init__", "pygsp/graphs/fourier.py:FourierMixIn.compute_fourier_basis"]}
{"id": "C88", "title": "The graph frequencies of Ring, Torus and Grid2d", "statement": "compute_fourier_basis() with the combinatorial Laplacian, after any history of calls, gives in increasing order, with multiplicities: for Ring(N, k) with 2 k < N the numbers sum_(d=1..k) (2 - 2 cos(2 pi d m / N)), m < N; for Torus(Nv, Mv) the sums (2 - 2 cos(2 pi a / Mv)) + (2 - 2 cos(2 pi b / Nv)), a < Mv, b < Nv; for Grid2d(N1, N2) without diagonals the sums (2 - 2 cos(pi a / N1)) + (2 - 2 cos(pi b / N2)), a < N1, b < N2.", "quantifier": "all sizes accepted by the constructors, all histories of calls, all eigensolvers that return an orthonormal eigenbasis", "why_tests_cant": "exact spectra for every size", "anchors": ["pygsp/graphs/ring.py:Ring.__init__", "pygsp/graphs/torus.py:Torus.__init__", "pygsp/graphs/grid2d.py:Grid2d.__init__", "pygsp/graphs/fourier.py:FourierMixIn.compute_fourier_basis"]}
{"id": "C89", "title": "The graph frequencies of FullConnected and Star", "statement": "compute_fourier_basis() with the combinatorial Laplacian, after any history of calls, gives the eigenvalues 0, N, ..., N for FullConnected(N) and 0, 1, ..., 1, N for Star(N), N >= 2.", "quantifier": "all N, all histories of calls, all eigensolvers that return an orthonormal eigenbasis", "why_tests_cant": "exact spectra for every size", "anchors": ["pygsp/graphs/fullconnected.py:FullConnected.__init__", "pygsp/graphs/star.py:Star.__init__", "pygsp/graphs/fourier.py:FourierMixIn.compute_fourier_basis"]}
{"id": "C90", "title": "The filter designs are continuous in the frequency", "statement": "Every filter of Held, Papadakis, Simoncelli (a > 0) and Regular is a continuous function of the nonnegative frequencies; those of Meyer and SimpleTight (any scales), HalfCosine, Itersine, Heat, MexicanHat and Abspline (enough scales) are continuous everywhere, those of Wave on [0, lmax] for speeds in [-2, 2), and Expwin with a positive slope is infinitely differentiable: the pieces of their definitions agree at the breakpoints, so that close eigenvalues get close responses. Rectangular is the exception: it jumps at a bound inside the spectrum.", "quantifier": "all parameters, all lmax > 0, all frequencies", "why_tests_cant": "continuity is a statement about uncountably many frequencies", "anchors": ["pygsp/filters/held.py", "pygsp/filters/papadakis.py", "pygsp/filters/simoncelli.py", "pygsp/filters/regular.py", "pygsp/filters/meyer.py", "pygsp/filters/simpletight.py", "pygsp/filters/halfcosine.py", "pygsp/filters/itersine.py", "pygsp/filters/heat.py", "pygsp/filters/mexicanhat.py", "pygsp/filters/abspline.py", "pygsp/filters/wave.py", "pygsp/filters/expwin.py", "pygsp/filters/rectangular.py"]}
{"id": "C91", "title": "cheby_rect applies the best polynomial approximation of an ideal band-pass and converges to it", "statement": "cheby_rect(G, [lo, hi], x, order=m) with 0 <= lo <= hi <= lmax returns p(L) x, for any number of signals, where p is the polynomial of degree at most max(m, 1) with the smallest squared error, in the Chebyshev measure of [0, lmax], to the ideal filter that is one on [lo, hi] and zero elsewhere (strictly smaller than for any other polynomial). As m grows the result converges to the ideal filtering in the Fourier basis: components inside the band are kept, components outside are removed, and a component whose frequency equals an edge of the band strictly inside (0, lmax) is halved. Bounds that are not a list or array of two numbers raise ValueError and leave the graph untouched.", "quantifier": "all graph states with a positive lmax, all bands, orders, signals; all polynomials of the same degree; all histories (for the limit, non-negative weights)", "why_tests_cant": "The optimality compares with all polynomials and the convergence is about all orders; a test can only compare a few.", "anchors": ["pygsp/filters/approximations.py:cheby_rect"]}
{"id": "C92", "title": "The Jackson-Chebyshev coefficients define a band-pass without overshoot, with a quantified accuracy", "statement": "compute_jackson_cheby_coeff([a, b], [lmin, lmax], m) with lmin <= a <= b <= lmax and lmin < lmax returns the exact Chebyshev coefficients of the ideal band-pass and the same coefficients damped by the Jackson factors (the normalized autocorrelation of sin((j+1) pi / (m+2))). The damped polynomial has values in [0, 1] on the whole of [lmin, lmax]; for m >= 2 it differs from the ideal filter by at most pi^2 (lmax - lmin)^2 / (2 (m+2)^2 d^2) at a frequency at distance d from the edges of the band; and cheby_op with these coefficients never increases the norm of a signal when lmax bounds the spectrum. Bounds outside the range raise TypeError (the code raises an empty tuple), lmin = lmax raises ZeroDivisionError. Violated expectation: the caller's list of bounds is overwritten by the rescaled bounds, so the same call repeated with the same list raises TypeError (non-negative range, band starting below its middle).", "quantifier": "all real bands and ranges, all degrees, all frequencies, all signals and graph histories (non-negative weights)", "why_tests_cant": "The absence of overshoot and the error bound are statements about every frequency and every degree.", "anchors": ["pygsp/filters/approximations.py:compute_jackson_cheby_coeff", "pygsp/filters/approximations.py:cheby_op"]}
{"id": "C93", "title": "lanczos returns an orthonormal Krylov basis and the projected matrix", "statement": "For a symmetric matrix A and a vector x different from zero, lanczos(A, order, x) returns V with orthonormal columns, the first being x / |x|, and H whose entries are those of V^T A V, a tridiagonal matrix. When H is square (order columns), p(A) x = |x| V p(H) e_1 for every polynomial p of degree smaller than the order. When fewer columns are returned, they span an invariant subspace of A up to a vector of norm at most 2^-52. Violated expectation: in that case H lacks its last row, and this always happens when the order exceeds the number of vertices, so H is not square and its eigenvalues cannot be computed.", "quantifier": "all symmetric matrices, all nonzero vectors, all orders, all polynomials of smaller degree", "why_tests_cant": "The Krylov property must hold for every matrix, vector and polynomial.", "anchors": ["pygsp/filters/approximations.py:lanczos"]}
{"id": "C94", "title": "SwissRoll and DavidSensorNet: which points are linked, with which weights, and where the points are", "statement": "SwissRoll(N, a, b, dim, thresh, s, noise, srtype), when it returns, gives an undirected graph without self-loops and with weights in [0, 1]; two vertices at Euclidean distance d (of their coordinates) are linked exactly when d <= s sqrt(2 ln(1/thresh)) (0 < thresh <= 1) and then with weight exp(-d^2/(2 s^2)), s = sqrt(2/N) by default. Its coordinates are, up to a translation and a positive factor, the points (t cos t, 21 y, t sin t), or (t cos t, t sin t) in two dimensions, plus the noise, with (t/pi)^2 = (1-u) a^2 + u b^2 for the uniform roll and t/pi = (1-u) a + u b for the classic one, u uniform in [0, 1); they are centered and their largest value is 1. It returns for dim 2 or 3 as soon as two draws differ (0 <= a < b, s nonzero), raises ValueError for one vertex or s = 0 and UnboundLocalError for another dimension or kind. DavidSensorNet(N), N not 64 or 500, links two sensors exactly when their distance is at most c = |0.2183 - 0.125 N / 436.075|, with weight 0.6^((d/c)^2), between 0.6 and 1. FINDING: c grows again with N from 762 sensors on, and from 5696 sensors on the graph is complete.", "quantifier": "every number of vertices, parameter, random draw and noise", "why_tests_cant": "A test draws one sample; the edge rule and the geometry are claims about all draws.", "anchors": ["pygsp/graphs/swissroll.py:SwissRoll.__init__", "pygsp/graphs/davidsensornet.py:DavidSensorNet.__init__", "pygsp/utils.py:distanz", "pygsp/utils.py:rescale_center"]}
{"id": "C95", "title": "Sensor, Sphere, Cube and TwoMoons: positions of the points and minimal number of neighbors", "statement": "Sensor(N, k, distributed=True) puts exactly one sensor in each cell of the sqrt(N) x sqrt(N) grid of the unit square (so all sensors are distinct), raises ValueError when N is not a perfect square, and returns for every 1 <= k < N; with or without distributed, the coordinates are in [0, 1), the graph is undirected without self-loop, and every sensor has at least k neighbors. Sphere gives points of norm 1 in the directions of the draws; Cube draws points in the unit square, or nb_pts // 6 points on each of the six faces of the unit cube, using every draw once; TwoMoons('synthesized') gives N // 2 vertices with label 0 on the lower half circle of radius 1 around (1/2, (1-distance)/2) and the others with label 1 on the upper half circle around (-1/2, (distance-1)/2), up to a perturbation of length sigmad |r|. Their graphs link every point to at least its 10 (5 for TwoMoons) nearest ones. Errors: unknown sampling or moontype ValueError, nb_dim > 3 NotImplementedError, nb_dim < 2 UnboundLocalError, too few points ValueError. FINDINGS: radius is ignored by Sphere and Cube; Cube in 3-D has 6 (nb_pts // 6) vertices, not nb_pts; with a seed and an even N the second moon is the first one translated and reflected, from the same draws.", "quantifier": "every number of vertices, parameter, metric, random draw (distinct points) and result of the neighbor search", "why_tests_cant": "A test draws one sample; these are claims about all draws.", "anchors": ["pygsp/graphs/nngraphs/sensor.py:Sensor.__init__", "pygsp/graphs/nngraphs/sphere.py:Sphere.__init__", "pygsp/graphs/nngraphs/cube.py:Cube.__init__", "pygsp/graphs/nngraphs/twomoons.py:TwoMoons.__init__", "pygsp/graphs/nngraphs/twomoons.py:TwoMoons._create_arc_moon", "pygsp/graphs/nngraphs/nngraph.py:NNGraph.__init__"]}
{"id": "C96", "title": "ImgPatches and Grid2dImgPatches: patch features with mirrored borders, invariance, and the union with the grid", "statement": "ImgPatches(img, patch_shape) has one vertex per pixel, row by row, and one feature per pixel of the patch and channel: the value of the image at the pixel of the window of r x c pixels placed (r-1)//2 rows above and (c-1)//2 columns left of the vertex, with mirrors at the borders of the image. For odd patches the middle feature is the vertex's own pixel; a patch_shape that has not two elements means a square patch with the first. With the default center and rescale, multiplying the image by a positive number and adding a constant does not change the graph. It raises IndexError for an empty patch_shape, UnboundLocalError when the image has neither two nor three dimensions, ValueError when the image, the patch or the channels are empty. Grid2dImgPatches(img) has the sum of the weights of the patch graph and of the four-neighbour grid, the vertex of pixel (i, j) being drawn at (j/w, (h-1-i)/h); with pairwise distinct patches (nearest neighbours) it is connected, without self-loops, and every vertex has at least k neighbours (identical patches may give self-loops, as in C79); an image with one column raises ValueError.", "quantifier": "every image, number of channels, patch shape and nearest-neighbour parameter", "why_tests_cant": "A test has one image; index arithmetic with mirrored borders is a claim about all sizes and parities.", "anchors": ["pygsp/graphs/nngraphs/imgpatches.py:ImgPatches.__init__", "pygsp/graphs/nngraphs/grid2dimgpatches.py:Grid2dImgPatches.__init__", "pygsp/graphs/grid2d.py:Grid2d.__init__"]}
{"id": "C97", "title": "Chebyshev filtering converges to exact filtering, with explicit error bounds", "statement": "On a graph with non-negative weights whose G.lmax bounds the spectrum, f.filter(x, method='chebyshev', order=m) and f.filter(x, method='exact') differ, filter by filter and in Euclidean norm, by at most: (1 + sqrt(2(m+1))) E |x| when polynomials of degree m are within E of the kernels on [0, lmax]; (1 + sqrt(2(m+1))) 3 pi K lmax / (4 (m+2)) |x| for K-Lipschitz kernels, so the Chebyshev result converges to the exact one as the order grows; 2 B (lmax/4)^(m+1)/(m+1)! |x| for kernels with a derivative of order m+1 bounded by B; in particular 2 (tau/4)^(m+1)/(m+1)! |x| for Heat with scales up to tau, whatever the graph.", "quantifier": "every graph, history, signal, order, and every kernel of the stated regularity", "why_tests_cant": "A test compares the two methods on one graph and kernel with a tolerance; an error bound is a claim about all of them.", "anchors": ["pygsp/graphs/fourier.py:Filter.filter", "pygsp/filters/approximations.py:compute_cheby_coeff", "pygsp/filters/approximations.py:cheby_op", "pygsp/filters/heat.py:Heat"]}
{"id": "C98", "title": "Pictures of graphs", "statement": "G.plot() draws each vertex at its coordinates and, when edges are drawn (on demand, or by default with fewer than 10000 edges, and never on a line), one segment between the coordinates of the ends of each edge, in the order of get_edge_list(). A signal given as vertex sizes, edge widths or edge colors is scaled linearly so that its least value gives normalize_intercept, its greatest gives 1 and a constant signal 1/2: areas of the vertices go from 1/4 to 4 times the default, widths of the edges from 1/2 to 2 times the default, opacities from 0.225 to 0.9; the scaling keeps the order of the values and does not depend on their origin nor unit. A signal given as vertex color is mapped to colors between limits, by default 1.05 times its least and greatest values, which contain all the values exactly when the signal is neither positive everywhere nor negative everywhere. Highlighted vertices are those with the given indices, with twice their size. AttributeError without coordinates or with coordinates of a wrong shape; ValueError for signals of a wrong length, several signals and unknown backends; IndexError for unknown highlighted vertices. Known deviations, proved: a single value for the only vertex or edge is rejected; three or four values between zero and one are taken for a color; on a line a signal is mandatory; with pyqtgraph the colors are right only if the lower limit is zero.", "quantifier": "all graphs, all coordinates in one, two or three dimensions, all signals, sizes, widths, colors, limits, highlights, styles and backends", "why_tests_cant": "what is drawn depends on all the values of the signals and coordinates; a test can only look at the pictures of a few graphs", "anchors": ["pygsp/plotting.py:_plot_graph", "pygsp/plotting.py:_plt_plot_graph", "pygsp/plotting.py:_qtg_plot_signal", "pygsp/plotting.py:_qtg_plot_graph", "pygsp/plotting.py:_get_coords", "pygsp/graphs/graph.py:Graph.plot"]}
{"id": "C99", "title": "Filters are bound to graph objects", "statement": "A program may share graphs between filters, interleave operations on the graphs with evaluation and filtering, slice, add and complement banks and move them with f(G2). Whatever it does, each graph ends in a state reached by the operations requested on it, between which G.lmax and G.e may have been read: weights, Laplacian and type are untouched, so that all guarantees about histories of a graph hold in presence of filters. The designs Meyer, SimpleTight, HalfCosine, Itersine, MexicanHat and Abspline read G.lmax at most once, at construction: their response never changes afterwards. Heat, Wave, Expwin, Rectangular, Held, Papadakis, Simoncelli and Regular keep a reference to the graph: the response, the result of filter (Chebyshev or exact), f @ s, compute_frame and toarray are those of the design for the current lmax of the graph given to the constructor (for exact filtering: lmax once G.e has been computed), even when moved by f(G2); this lmax is a number bounding the spectrum, as long as the Laplacian type is not changed; the response is final once the complete Fourier basis has been computed, unless compute_laplacian or estimate_lmax is called. f + g lies on the graph of f and gives the responses of f, then those of g; f(G2) keeps all responses; f[i] gives the i-th one. Known deviations, proved: on every graph with an edge, computing G.e (as exact filtering does) changes the response of the heat kernels already built, since lmax goes from 1.01 times the largest eigenvalue to that eigenvalue; Heat(G1)(G2) is not Heat(G2) if lmax differ.", "quantifier": "all numbers of graphs, all sizes, all programs (sequences of graph operations, evaluations and filterings), all filters obtained from designs, functions, slicing, addition, complement and f(G2), all sharing, all eigensolver results", "why_tests_cant": "the result depends on the history of every shared object; a test runs a few histories", "anchors": ["pygsp/filters/filter.py:Filter.__call__", "pygsp/filters/filter.py:Filter.__add__", "pygsp/filters/filter.py:Filter.__getitem__", "pygsp/filters/filter.py:Filter.__len__", "pygsp/filters/filter.py:Filter.__matmul__", "pygsp/filters/filter.py:Filter.toarray", "pygsp/filters/filter.py:Filter.evaluate", "pygsp/filters/filter.py:Filter.filter", "pygsp/filters/filter.py:Filter.complement", "pygsp/graphs/graph.py:Graph.lmax", "pygsp/filters/heat.py:Heat", "pygsp/filters/held.py:Held", "pygsp/filters/meyer.py:Meyer", "pygsp/filters/approximations.py:compute_cheby_coeff"]}
{"id": "C100", "title": "Pictures of filter banks", "statement": "f.plot(n) draws one curve per filter: its response at the abscissae. Without eigenvalues (the default while G.e has not been computed) the abscissae are n equally spaced points from 0 to G.lmax, ends included; with them, these points and the eigenvalues in ascending order, the eigenvalues being marked by vertical lines and by dots lying on the curves. The sum of the squares of the responses is drawn, and the curves labelled, on request and by default exactly when there are several filters. For a tight bank (sum of squares constant between 0 and lmax) the sum is drawn as a horizontal line; with n=1000, the least and greatest ordinates of the sum are what estimate_frame_bounds() returns. The designs bound to the graph are drawn for the current lmax and the default picture computes no Fourier basis. Drawing changes graphs only by reading G.lmax and G.e. Known deviation, proved: plot(eigenvalues=True) on a graph just constructed draws up to 1.01 times the largest eigenvalue, the same call again only up to the largest eigenvalue.", "quantifier": "all banks, all numbers of points, all options, all graphs and memories", "why_tests_cant": "the picture depends on all values of all kernels at all abscissae; a test can only look at a few pictures", "anchors": ["pygsp/plotting.py:_plot_filter", "pygsp/plotting.py:_plt_plot_filter", "pygsp/filters/filter.py:Filter.plot", "pygsp/filters/filter.py:Filter.estimate_frame_bounds"]}
{"id": "C101", "title": "With every built-in filter design but Rectangular, Chebyshev filtering converges to exact filtering", "statement": "For every bank built by Held, Papadakis, Simoncelli (a > 0), Regular, Meyer, SimpleTight (two filters or more), HalfCosine, Itersine, Heat (normalized or not), MexicanHat, Abspline (default scales, or enough of them), Wave (speeds in (-2, 2)) or Expwin (positive slope), with any parameters, each filter is a Lipschitz function of the frequency on [0, lmax], and f.filter(x, method='chebyshev', order=m) differs from f.filter(x, method='exact') by at most C/sqrt(m) times the norm of x, for all m >= 2 and all signals x, with C depending on the graph and the design only. So the approximation converges to the exact result as the order grows.", "quantifier": "every design of pygsp.filters (but Rectangular, Gabor, Modulation) with every value of its parameters, every graph with non-negative weights and every history of calls, every order, every signal", "why_tests_cant": "Tests compare the two methods for a few orders and designs; the designs are defined piecewise with square roots of complements, where an unnoticed jump or vertical tangent would spoil the convergence at some frequencies only.", "anchors": ["pygsp/filters/filter.py:Filter.filter", "pygsp/filters/approximations.py:compute_cheby_coeff", "pygsp/filters/approximations.py:cheby_op", "pygsp/filters/held.py:Held", "pygsp/filters/papadakis.py:Papadakis", "pygsp/filters/simoncelli.py:Simoncelli", "pygsp/filters/regular.py:Regular", "pygsp/filters/meyer.py:Meyer", "pygsp/filters/simpletight.py:SimpleTight", "pygsp/filters/halfcosine.py:HalfCosine", "pygsp/filters/itersine.py:Itersine", "pygsp/filters/heat.py:Heat", "pygsp/filters/mexicanhat.py:MexicanHat", "pygsp/filters/abspline.py:Abspline", "pygsp/filters/wave.py:Wave", "pygsp/filters/expwin.py:Expwin"]}
{"id": "C102", "title": "Renaming the vertices renames the results", "statement": "If the weights of a second graph object are those of the first with vertex i renamed sigma(i) (same Laplacian type), then whatever was called on the two objects before and whatever eigenvectors the solver returns: the frequencies computed by compute_fourier_basis() are the same array, and lmax becomes the same number when no basis was cached; filter() with the exact method and any kernels that are functions of the frequency (all the built-in designs) maps the renamed signal to the renamed output, for every shape of input; so does the Chebyshev method with any kernels when the two objects have the same lmax (same values or same exception); resistance_distance and regression_tikhonov (combinatorial Laplacian) are renamed accordingly. In particular exact filters commute with the symmetries of a graph.", "quantifier": "all graphs with non-negative weights, permutations, call histories, kernels, signals of any shape, masks and tau", "why_tests_cant": "quantifies over all graphs, permutations and call histories, and over all the eigenvectors a solver may return in degenerate eigenspaces", "anchors": ["pygsp/graphs/fourier.py:FourierMixIn.compute_fourier_basis", "pygsp/filters/filter.py:Filter.filter", "pygsp/filters/approximations.py:cheby_op", "pygsp/utils.py:resistance_distance", "pygsp/learning.py:regression_tikhonov"]}
{"id": "C103", "title": "Multiplying all the weights by a positive constant", "statement": "If all the weights are multiplied by c > 0, the combinatorial Laplacian is multiplied by c and the normalized one does not change; the frequencies (in order) and the lmax set by compute_fourier_basis() follow. Every built-in design built with the new lmax responds to the new frequencies as the old one to the old frequencies (MexicanHat with normalize=False; scales given by the user divided by the factor), so that filter() gives the same output, with the exact method and with the Chebyshev method. resistance_distance is divided by c, and regression_tikhonov gives the same result for tau/c.", "quantifier": "all graphs with non-negative weights, c > 0, call histories, designs and their parameters, signals of any shape", "why_tests_cant": "quantifies over all graphs, factors, designs and parameters; a test only tries some factors", "anchors": ["pygsp/filters/filter.py:Filter.filter", "pygsp/graphs/graph.py:Graph.compute_laplacian", "pygsp/graphs/fourier.py:FourierMixIn.compute_fourier_basis", "pygsp/utils.py:compute_log_scales", "pygsp/filters/abspline.py:Abspline.__init__", "pygsp/filters/mexicanhat.py:MexicanHat.__init__", "pygsp/filters/halfcosine.py:HalfCosine.__init__", "pygsp/filters/itersine.py:Itersine.__init__"]}
{"id": "C104", "title": "Adding weight raises energies and frequencies and lowers resistances", "statement": "Let the weights of a second graph object be entry by entry at least those of the first (both non-negative, combinatorial Laplacians; edges may be added). Then, whatever was called on the two objects before: dirichlet_energy of every signal is at least as large on the second; the k-th frequency returned by compute_fourier_basis() is at least as large for every k, and so is lmax (no basis cached before); every effective resistance of resistance_distance is at most as large (first graph connected); and if is_connected() answers True for the first it does for the second.", "quantifier": "all pairs of graphs of the same size with comparable non-negative weights, call histories, signals, vertex pairs", "why_tests_cant": "quantifies over all pairs of graphs and all signals; the monotonicity of the k-th sorted frequency and of resistances are theorems (Weyl, Rayleigh), not visible on samples", "anchors": ["pygsp/graphs/graph.py:Graph.compute_laplacian", "pygsp/graphs/graph.py:Graph.dirichlet_energy", "pygsp/graphs/fourier.py:FourierMixIn.compute_fourier_basis", "pygsp/graphs/graph.py:Graph.is_connected", "pygsp/utils.py:resistance_distance"]}
{"id": "C105", "title": "A graph can be processed component by component", "statement": "extract_components cuts an undirected graph with non-negative weights into connected graphs such that every vertex is in exactly one, with the weights of the graph between its vertices and no edge to the others; so does subgraph() for any set of vertices without edges to the others. On such a piece, whatever was called on the two objects before and whatever eigenvectors the solvers return: exact filtering (any kernels that are functions of the frequency, any input shape) of the piece of the signal gives the piece of the filtered signal, and so does the Chebyshev method if the piece is filtered with the lmax of the graph; resistance_distance between vertices of the piece and regression_tikhonov (every component with a label) restrict to it as well. The array of frequencies of the graph contains every number as many times as all the arrays of its components together, and its lmax is the largest of theirs.", "quantifier": "all graphs with non-negative weights, components or edge-free cuts, call histories, kernels, signals of any shape, masks, tau", "why_tests_cant": "quantifies over all graphs and signals and over all the eigenvectors a solver may return (eigenvectors shared between components)", "anchors": ["pygsp/graphs/graph.py:Graph.extract_components", "pygsp/graphs/graph.py:Graph.subgraph", "pygsp/filters/filter.py:Filter.filter", "pygsp/filters/approximations.py:cheby_op", "pygsp/graphs/fourier.py:FourierMixIn.compute_fourier_basis", "pygsp/utils.py:resistance_distance", "pygsp/learning.py:regression_tikhonov"]}
{"id": "C106", "title": "Graphs made from data files", "statement": "Whatever the matrix or the points in the data file, Minnesota() has weight one exactly where the file's matrix is positive and between the two vertices the constructor joins, is undirected when the file's matrix is symmetric, and is connected when every vertex of the file's graph is linked to one of these two vertices; Minnesota(connected=False) keeps the file's weights. Airfoil() is undirected, its edges are exactly the listed pairs, in either order, and the weight is half the number of listings (one half everywhere and no self-loop if no pair is listed twice). Bunny() keeps the points of the file and connects two of them exactly when they are at a distance of at most 0.02, with larger weights for smaller distances. Indices outside of the graph raise an error.", "quantifier": "every matrix, list of pairs and set of points the files could contain; both Laplacian types", "why_tests_cant": "the tests load the one file of the package and check only that the constructor returns", "anchors": ["pygsp/graphs/minnesota.py: Minnesota.__init__", "pygsp/graphs/airfoil.py: Airfoil.__init__", "pygsp/graphs/nngraphs/bunny.py: Bunny.__init__", "pygsp/graphs/nngraphs/nngraph.py: NNGraph.__init__"]}
{"id": "C107", "title": "The constructors draw their graphs faithfully", "statement": "Path, Ring, Grid2d and Torus place different vertices at different points, and the positions determine the edges: on a Path, the vertices at distance one (to the right, when it is directed); on a Ring(N, k), 2k < N, drawn on the unit circle, the vertices at a distance of at most 2 sin(pi k / N); on a Grid2d, the vertices one step apart in a row or a column, and with diagonal > 0 those one step apart in both; on a Torus, drawn on the torus of radii 1.5 and 1, the vertices 2 r sin(pi / Nv) apart on a parallel of radius r or 2 sin(pi / Mv) apart on a meridian. In Grid2d the rows go down and the columns go right, inside the unit square.", "quantifier": "every number of vertices, of neighbours, of rows and columns (at least two columns; at least three vertices in each direction of the torus), every diagonal weight", "why_tests_cant": "the tests compare coordinates on one size or not at all; nothing relates them to the edges", "anchors": ["pygsp/graphs/path.py: Path.__init__", "pygsp/graphs/ring.py: Ring.__init__", "pygsp/graphs/grid2d.py: Grid2d.__init__", "pygsp/graphs/torus.py: Torus.__init__", "pygsp/graphs/graph.py: Graph.set_coordinates"]}
{"id": "C108", "title": "Filtering on classical domains is classical signal processing", "statement": "Exact filtering with any bank on `Ring(N, k)` equals, for each kernel, the circular convolution of the signal with the impulse response obtained by the inverse Fourier transform of the kernel at the ring's frequencies; on `Torus(N, M)` it is the two-dimensional circular convolution; on `Path(N)` it multiplies the discrete cosine transform (DCT-II) by the kernel at 2 - 2 cos(pi k / N); on `Grid2d(N1, N2)` the same with the two-dimensional transform; on `FullConnected(N)` it is phi(0) times the average plus phi(N) times the deviation from it; on `Star(N)` an explicit combination of the average, the average of the leaves and the deviations of the leaves with weights phi(0), phi(N), phi(1). The heat filter on a grid (a torus) is the heat filter of one path (ring) applied along the columns followed by the one of the other path (ring) applied along the rows, with scales converted by the ratio of the lmax.", "quantifier": "all sizes, all banks, all signals, all histories of the graph object", "why_tests_cant": "needs all sizes, kernels and signals; the eigenvectors returned by the solver are not unique on rings, tori and complete graphs, so that no comparison of bases can show it", "anchors": ["pygsp/filters/filter.py: Filter.filter", "pygsp/filters/heat.py: Heat", "pygsp/graphs/ring.py: Ring", "pygsp/graphs/torus.py: Torus", "pygsp/graphs/path.py: Path", "pygsp/graphs/grid2d.py: Grid2d", "pygsp/graphs/fullconnected.py: FullConnected", "pygsp/graphs/star.py: Star"]}
{"id": "C109", "title": "The value of the bound on the largest frequency, and the graphs that attain it", "statement": "After any sequence of calls on a graph with non-negative weights, estimate_lmax('bounds') (when 'bounds' is not already the method in use) makes G.lmax equal to 2 for the normalized Laplacian and, for the combinatorial one, to the least of N max(W), 2 max(dw), the largest dw[s] + dw[t] over the edges (when there are edges) and the largest dw[i] + (W dw)[i] / dw[i] (when no weighted degree is zero). 2 max(dw) is a frequency exactly when some set of components is bipartite and regular of the largest degree; N max(W) is one exactly when the vertices split in two parts such that all the weights between them are the largest weight; in both cases G.lmax is then exactly the largest frequency. The value 2 is a frequency of the normalized Laplacian exactly when some set of components with edges is bipartite; for a connected graph, exactly when it is bipartite (without connectedness the \"Equal iff the graph is bipartite\" of the code is false: a triangle and a separate edge).", "quantifier": "all graphs with non-negative weights (directed or not, with isolated vertices, with self-loops), all call histories", "why_tests_cant": "the value is a minimum of four maxima with special cases at zero degrees and without edges, and the characterisations range over all graphs and colourings", "anchors": ["pygsp/graphs/graph.py: Graph.estimate_lmax, Graph._get_upper_bound, Graph.lmax"]}
{"id": "C110", "title": "Small changes of the weights make small changes of the results", "statement": "For two graphs on the same vertices with non-negative weights and the combinatorial Laplacian, in any state, let D = sum_ij |W[i,j] - W'[i,j]|. The Dirichlet energies of any signal x differ by at most D |x|^2; the frequencies returned by compute_fourier_basis differ one by one by at most D, and so do the lmax it sets; exact filtering with kernels that are K-Lipschitz on the frequencies changes every output by at most K D |x|; for every built-in design but Rectangular there is a constant K that only depends on the design, its parameters and lmax such that the outputs of the design on the two graphs (each made for its own lmax) differ by at most K (D + |lmax - lmax'|) |x|, whatever the graphs and their size. If the eigensolver is only approximate (orthonormal U with |U diag(e) U' - L| <= eps in Frobenius norm), filtering with K-Lipschitz kernels is within K eps |x| of the exact result.", "quantifier": "all pairs of graphs with non-negative weights on the same vertices, all reachable states, all signals, all Lipschitz kernels and all parameters of the built-in designs, all approximate bases", "why_tests_cant": "a bound over all pairs of graphs, all signals and all sizes cannot be sampled", "anchors": ["pygsp/filters/filter.py: Filter.filter, Filter.evaluate", "pygsp/graphs/fourier.py: FourierMixIn.compute_fourier_basis", "pygsp/graphs/graph.py: Graph.compute_laplacian, Graph.dirichlet_energy"]}
{"id": "C111", "title": "Frequencies interlace when a graph is changed locally, Kron-reduced or restricted", "statement": "For graphs with non-negative weights and the combinatorial Laplacian, with frequencies sorted as compute_fourier_basis returns them: if two graphs on the same vertices differ in the weights of at most r pairs of vertices (edges added, removed or reweighted by any amount), then e[k] <= e'[k+r] and e'[k] <= e[k+r] for every k; the Kron reduction of an undirected graph to k of its n vertices (every vertex linked to a kept one) satisfies e[j] <= e_r[j] <= e[j+n-k] for every j, so it never lowers a frequency and never raises the largest one; and the subgraph on k of the n vertices satisfies e_sub[j] <= e[j+n-k].", "quantifier": "all graphs of any size with non-negative weights, all changes of r pairs, all sets of kept vertices, all indices of frequencies, all sound eigensolvers, all call histories", "why_tests_cant": "A test compares a few spectra; the interlacing has to hold for every graph, every set of vertices and every magnitude of the weight change.", "anchors": ["pygsp/graphs/fourier.py: FourierMixIn.compute_fourier_basis", "pygsp/reduction.py: kron_reduction", "pygsp/graphs/graph.py: Graph.subgraph"]}
{"id": "C112", "title": "Making a graph from a CSR matrix shares its memory", "statement": "Graph(A) for a CSR matrix A works on the arrays of A. (1) What G.W reads afterwards is what the constructor computes from the values of A. (2) If the stored positions fill at least half of the arrays of A (as in any matrix scipy makes), A has the same values afterwards; its entries have become those of G.W: sorted, merged, without stored zeros. (3) Objects on other arrays are not changed; if A is in canonical format without stored zeros, nothing is written at all. (4) Through every history of making graphs from such a matrix and assigning non-zero stored values, A is what the caller expects, and every graph made on the way reads as A does at the end. Findings: G.n_edges and G.L do not follow such an assignment; and when less than half of the arrays is in use, indptr is shared but indices and data are copied, so that making a second graph after zeroing a stored value corrupts both A and the first graph.", "quantifier": "all CSR matrices (any size, stored zeros, unsorted or repeated positions, any spare length of the arrays), all objects sharing them, all histories of constructions and assignments", "why_tests_cant": "Aliasing errors appear only for particular layouts of the arrays and particular orders of operations; tests construct a graph from a fresh matrix and do not look at the matrix again.", "anchors": ["pygsp/graphs/graph.py: Graph.__init__", "pygsp/graphs/graph.py: Graph.W"]}
{"id": "C113", "title": "The transform diagonalises the Laplacian and the filters, and a signal cannot be concentrated in both domains", "statement": "Let compute_fourier_basis() have been called on a graph with non-negative weights (it can always be: afterwards e is ascending and U an orthonormal eigenbasis of the unchanged L), and write y = G.gft(x). (1) The sum of x² is the sum of y², G.dirichlet_energy(x) = sum_k e[k] y[k]², and gft(L x) = e * y. (2) Exact filtering with one kernel psi returns z = igft(psi(e) * y), gft(z) = psi(e) * y, and leaves the graph as it was. (3) Two such filters applied one after the other, in either order, give what the filter of the product of the kernels gives. (4) If y vanishes above index m then dirichlet_energy(x) <= e[m] * sum x²; if y vanishes below m then dirichlet_energy(x) >= e[m] * sum x². (5) Uncertainty principle: if x is not zero, 1 <= G.coherence² * (number of non-zero x[v]) * (number of non-zero y[k]). (6) regression_tikhonov(G, y, M, tau) with tau > 0 and every vertex measured returns what the exact filter with kernel 1/(1 + tau λ) returns.", "quantifier": "Every graph with non-negative weights in every reachable state, either Laplacian, every signal and every kernel.", "why_tests_cant": "The statements couple all eigenvectors of an arbitrary graph with all signals; tests compare a few signals on a few graphs.", "anchors": ["pygsp/graphs/fourier.py: FourierMixIn.gft", "pygsp/graphs/fourier.py: FourierMixIn.coherence", "pygsp/graphs/graph.py: Graph.dirichlet_energy", "pygsp/filters/filter.py: Filter.filter", "pygsp/learning.py: regression_tikhonov"]}
{"id": "C114", "title": "Effective resistances, graph frequencies and components", "statement": "Let R = utils.resistance_distance(G) for a graph with non-negative weights and the combinatorial Laplacian (np.linalg.pinv returns the Moore-Penrose inverse). (1) After compute_fourier_basis(), R[i, j] is the sum over the non-zero frequencies of (U[i, k] - U[j, k])² / e[k], also when G is not connected. (2) The sum of all entries of R is 2 N times the sum of 1 / e[k] over the non-zero frequencies (Kirchhoff index). (3) The sum over all pairs of W[i, j] R[i, j] is 2 (N - number of weakly connected components) (Foster). (4) If G is connected and N >= 2 then e[1] > 0 and 2 / e[N-1] <= R[i, j] <= 2 / e[1] for i != j.", "quantifier": "Every graph with non-negative weights, every reachable state, every size.", "why_tests_cant": "The identities quantify over all graphs and couple two independent numerical routines (the pseudo-inverse and the eigendecomposition).", "anchors": ["pygsp/utils.py: resistance_distance", "pygsp/graphs/fourier.py: FourierMixIn.compute_fourier_basis"]}
{"id": "C115", "title": "The graph frequencies measure the bottlenecks of the graph (Poincaré and Cheeger)", "statement": "After compute_fourier_basis() on a graph with non-negative weights and at least two vertices: with the combinatorial Laplacian the energy of every signal lies between e[1] and e[N-1] times the sum of its squared differences to its mean; for every set A of vertices e[1]|A||A^c| <= N cut(A) <= e[N-1]|A||A^c|, where cut(A) is the weight between A and the other vertices, hence every degree (without self-loop) is at least (N-1)/N e[1] on the one hand and at most (N-1)/N e[N-1] on the other; conversely, for every e[k] > 0, one threshold of the signal U[:, k] separates a non-empty set of at most half of the vertices whose cut is at most sqrt(2 d e[k]) per vertex, d being the largest degree. With the normalized Laplacian the same holds with volumes instead of numbers of vertices: e[1] vol(A) vol(A^c) <= vol(V) cut(A) <= e[N-1] vol(A) vol(A^c), and one threshold of U[:, k]/sqrt(dw) has conductance at most sqrt(2 e[k]). The frequencies sum to the degrees without self-loops (normalized: to one per vertex with edges, minus w_vv/dw_v). If every edge weighs at least w and every two vertices are within D hops, then e[1] >= 2w/((N-1)D).", "quantifier": "every graph with non-negative weights (directed ones are symmetrized by the Laplacian), every history of calls, every signal, every set of vertices, every frequency", "why_tests_cant": "The statements range over all graphs and all 2^N cuts; a test can only look at a few small graphs, and the constants of the inequalities cannot be validated by examples.", "anchors": ["pygsp/graphs/fourier.py: compute_fourier_basis", "pygsp/graphs/graph.py: compute_laplacian", "pygsp/graphs/graph.py: dirichlet_energy", "pygsp/graphs/graph.py: dw"]}
{"id": "C116", "title": "What the default frame bounds mean", "statement": "For every filter bank of pointwise kernels on every graph object, `estimate_frame_bounds()` without eigenvalues returns exactly the least and the greatest value of the sum of the squared responses at the 1000 equally spaced frequencies from 0 to `lmax`, both ends included. If that sum varies by at most K per unit of frequency on [0, lmax] and no eigenvalue exceeds lmax, then the energy of the coefficients of every signal lies between A - K·lmax/1998 and B + K·lmax/1998 times its own; if it is monotone (Heat, for instance) the estimate is its values at the two ends and holds for every signal without tolerance. Without such an assumption it proves nothing: whenever one eigenvalue is not one of the 1000 frequencies, some continuous kernel is reported as a tight frame (1, 1) although it multiplies the energy of a signal by 4.", "quantifier": "all reachable graph states with a complete basis, all lists of kernels, all signals, all Lipschitz constants", "why_tests_cant": "a test compares the estimate with a few signals; the accuracy is a claim about every signal, kernel and graph, and the failure needs a kernel built from the spectrum", "anchors": ["pygsp/filters/filter.py: Filter.estimate_frame_bounds", "pygsp/filters/filter.py: Filter.evaluate", "pygsp/filters/filter.py: Filter.analyze", "pygsp/graphs/fourier.py: FourierMixIn.compute_fourier_basis"]}
{"id": "C117", "title": "The printed form of graphs and filters", "statement": "repr(G) is the class name followed, between parentheses and separated by commas, by n_vertices, n_edges and every extra attribute in order. With limit >= 2 (the titles of plots use 4) at most `limit` attributes are shown, the first ones, followed by an ellipsis exactly when some are missing; a limit under 2 limits nothing. Whatever the attributes and the limits, two graphs of one class that print the same have as many vertices and as many edges. repr of a filter shows 1, the number of filters and the attributes of the design, and two filters of one class that print the same have as many filters.", "quantifier": "all graphs and filter banks, all class names, all lists of attributes and texts of their values, all limits", "why_tests_cant": "tests compare a few printed forms; that nothing is lost or cut wrongly must hold for every list of attributes, every limit and every number of digits", "anchors": ["pygsp/graphs/graph.py: Graph.__repr__", "pygsp/graphs/graph.py: Graph._get_extra_repr", "pygsp/filters/filter.py: Filter.__repr__", "pygsp/filters/filter.py: Filter._get_extra_repr", "pygsp/plotting.py: _plot_graph"]}
{"id": "C118", "title": "Where the Fourier modes change sign (nodal domains, spectral bisection)", "statement": "For every graph with non-negative weights, either Laplacian: a signal x with L x = t x has at most as many sign domains (maximal connected sets of vertices where x has one sign) as there are graph frequencies up to t, repeated ones counted; so the mode G.U[:, k] has at most k + 1 when its frequency is below the next one. On a connected graph with the combinatorial Laplacian the first mode is constant and every other one takes both signs. The second mode cuts such a graph into connected parts: for every c >= 0 the vertices where it is at least -c are linked to each other inside that set, and those where it is at most c too (Fiedler); when it vanishes nowhere its sign makes exactly two connected, non-empty parts.", "quantifier": "all reachable graph states with non-negative weights and a complete basis, all modes, all choices of an orthonormal eigenbasis by the solver, all thresholds", "why_tests_cant": "the basis is chosen by the solver inside each eigenspace, and the claims are about connectivity along every path of every graph", "anchors": ["pygsp/graphs/fourier.py: FourierMixIn.compute_fourier_basis", "pygsp/graphs/fourier.py: FourierMixIn.U", "pygsp/graphs/graph.py: Graph.compute_laplacian"]}
{"id": "C119", "title": "Sparsification: how close the sparsified graph is", "statement": "For a connected undirected graph with at least three vertices, no self-loop and weights of at least 1e-10, one attempt of graph_sparsify draws q = round(0.16 N log(N)/epsilon^2) edges independently, edge k with probability weight times effective resistance over N - 1, and an edge drawn c times gets c/(q p_k) times its weight. Consequences: the Dirichlet energy of every signal is right on average, with a variance of at most (N-2)/q times its square; a given signal's energy is off by more than a factor 1±delta with probability at most 2 exp(-q delta^2/(4(N-1))); the energies of all signals at once, and all the frequencies at once, are right up to a factor 1±delta except with probability at most (N-1)(N-2)/(q delta^2); the attempt is disconnected with probability at most (N-1)(N-2)/q. Whatever the random generator returns and for any maxiter, no energy and no frequency is multiplied by more than N - 1.", "quantifier": "every such graph, reachable state, epsilon, signal, delta and outcome of the draws", "why_tests_cant": "a probability over all outcomes and a bound for a continuum of signals cannot be checked by sampling a few graphs", "anchors": ["pygsp/reduction.py: graph_sparsify", "pygsp/utils.py: resistance_distance"]}
{"id": "C120", "title": "What the parameter tau of regression_tikhonov does", "statement": "regression_tikhonov: a larger tau gives a smoother result that is farther from the measurements; every tau > 0 is smoother than the interpolation (tau = 0) and misses the measurements by at most tau times the smoothness of the interpolation (sum of squares). With the combinatorial Laplacian: for small tau the result is within sqrt(tau E) of the interpolation at every vertex; on a connected graph the mean over the labelled vertices is that of the measurements and for large tau the result is within sqrt(Rmax V / tau) of it everywhere (Rmax the largest effective resistance, V the squared spread of the measurements). When all vertices are measured, the regression is the filter 1/(1+tau lambda) (exact method), i.e. a division in the Fourier domain. Errors in the measurements are not amplified (maximum norm), larger measurements give larger results, and an affine change of the measurements changes the result accordingly, for every tau.", "quantifier": "every graph with non-negative weights, reachable state, mask, measurements, tau, exact conjugate gradient (C146: scipy's tolerance breaks the statement for small tau)", "why_tests_cant": "comparisons between the results for a continuum of tau and of measurements, and limits", "anchors": ["pygsp/learning.py: regression_tikhonov", "pygsp/filters/filter.py: Filter.filter", "pygsp/graphs/fourier.py: FourierMixIn.gft"]}
{"id": "C121", "title": "Filters and regressions are local, with a quantified error", "statement": "Filter.filter (exact): if the kernel is within eps of a polynomial of degree K at the frequencies of the graph, then the energy of the filtered signal at the vertices more than K hops away from the signal is at most eps^2 times the energy of the signal. For Heat(G, scale): eps = scale^(K+1)/(K+1)!, whatever the graph. regression_tikhonov with all vertices measured: changing some measurements changes the result beyond K hops by at most (tau M / (2 + tau M))^(K+1) times the change (Euclidean norms), where M bounds the frequencies.", "quantifier": "every graph with non-negative weights, reachable state, kernel, polynomial, signal, scale, tau, number of hops", "why_tests_cant": "a decay in the number of hops for all graphs and signals", "anchors": ["pygsp/filters/filter.py: Filter.filter", "pygsp/filters/heat.py: Heat", "pygsp/learning.py: regression_tikhonov"]}
{"id": "C122", "title": "Learning on the Kron-reduced graph is learning on the graph", "statement": "When all the measured vertices are kept by kron_reduction(G, ind), regression_tikhonov on the reduced graph (with the measurements and the mask of the kept vertices, same tau) returns, for every tau, the values at the kept vertices of regression_tikhonov on G, with the same Dirichlet energy; interpolating these values on G (tau = 0, mask of the kept vertices) gives the regression on G at all the vertices. classification_tikhonov on the reduced graph returns the rows of the kept vertices of the classification on G, with the same number of classes.", "quantifier": "every undirected graph with non-negative weights and combinatorial Laplacian, reachable states of the two graphs, kept vertices, mask within them, measurements or labels, tau, exact conjugate gradient", "why_tests_cant": "relates three functions for all graphs, selections and measurements", "anchors": ["pygsp/reduction.py: kron_reduction", "pygsp/learning.py: regression_tikhonov", "pygsp/learning.py: classification_tikhonov"]}
{"id": "C123", "title": "The distribution of StochasticBlockModel and ErdosRenyi", "statement": "With independent uniform random numbers: StochasticBlockModel(connected=False) returns each graph with the product of the probabilities of its edges and non-edges; every set of pairs is linked independently with the probabilities of their blocks. With connected=True and n_try=None the constructor returns with probability one (when a sample is connected with probability q > 0, e.g. when all the probabilities are positive) and each connected graph comes with its probability in the model divided by q (the conditional distribution); with n_try=t it raises ValueError with probability (1-q)^t and returns a connected graph with its probability times 1+(1-q)+...+(1-q)^(t-1). The number of edges of an undirected sample has as mean the sum of the probabilities and deviates from it by eps or more with probability at most 2 exp(-2 eps^2 / number of pairs). For ErdosRenyi(N, p): a graph with m edges has probability p^m (1-p)^(N(N-1)/2-m), mean p N(N-1)/2.", "quantifier": "every N, labels, matrix of probabilities, directed, self_loops, n_try; probability over all infinite sequences of uniform random numbers", "why_tests_cant": "a distribution over all graphs, with an unbounded retry loop", "anchors": ["pygsp/graphs/stochasticblockmodel.py: StochasticBlockModel", "pygsp/graphs/erdosrenyi.py: ErdosRenyi"]}
{"id": "C124", "title": "Flows along the edges: Helmholtz decomposition, circulations, Thomson's principle", "statement": "grad, div, get_edge_list and resistance_distance form an electrical network. Every edge signal is, in exactly one way, grad(x) plus a signal of zero div, and the energies add up; with the combinatorial Laplacian the edge signals of zero div have dimension n_edges - n_vertices + number of components; an edge signal with div equal to b exists exactly when b sums to zero on every component; an edge signal is a gradient exactly when its values divided by the square roots of the weights cancel around every closed walk; among the edge signals with the divergence of grad(x), grad(x) has the least energy and is the only one with it. div(y) is what accumulates at the vertices when sqrt(w) y flows along every edge (over sqrt(2) if the graph is directed), so the value of resistance_distance between two linked vertices of an undirected graph is the least power sum f_k^2 / w_k lost by a flow of one unit between them, reached by one flow only, the one that obeys Ohm's law.", "quantifier": "all graphs with non-negative weights reached by any history of operations, all vertex signals, edge signals, demands, closed walks and pairs of linked vertices", "why_tests_cant": "Optimality over all flows, uniqueness and the exact dimension of a subspace concern every edge signal of every graph; a test only tries some flows on some graphs.", "anchors": ["pygsp/graphs/difference.py: DifferenceMixIn.grad", "pygsp/graphs/difference.py: DifferenceMixIn.div", "pygsp/graphs/difference.py: DifferenceMixIn.compute_differential_operator", "pygsp/graphs/graph.py: Graph.get_edge_list", "pygsp/utils.py: resistance_distance"]}
{"id": "C125", "title": "Connectivity and degrees of StochasticBlockModel and ErdosRenyi", "statement": "For undirected samples drawn with independent uniform random numbers: the probability that no edge leaves a set of vertices is the product of 1 - p over the crossing pairs; a sample is disconnected with at least that probability for any proper set, and at most with the sum of those probabilities over the non-empty sets of at most half of the vertices. When every pair has probability at least p, it is disconnected with probability at most exp(N exp(-p N / 2)) - 1, so StochasticBlockModel(connected=True, n_try=t) raises ValueError with probability at most the t-th power of that; for ErdosRenyi(N, p) it lies between (1 - p)^(N - 1) and the sum over m = 1 .. N // 2 of C(N, m) (1 - p)^(m (N - m)). The degree G.d[v] has mean the sum of the probabilities of the pairs of v, and deviates by eps or more with probability at most 2 exp(-2 eps^2 / N), all vertices at once with N times that.", "quantifier": "all sizes, block matrices with entries in [0, 1] (symmetric for the degrees), labels, self_loops options, numbers of trials, sets of vertices and deviations", "why_tests_cant": "Probabilities over infinitely many random streams cannot be settled by sampling, and the bounds hold for every size and block matrix.", "anchors": ["pygsp/graphs/stochasticblockmodel.py: StochasticBlockModel", "pygsp/graphs/erdosrenyi.py: ErdosRenyi", "pygsp/graphs/graph.py: Graph.is_connected", "pygsp/graphs/graph.py: Graph.d"]}
{"id": "C126", "title": "Diffusion is the heat equation", "statement": "On a graph whose Fourier basis has been computed, y(a) = Heat(g, scale=a).filter(x, method='exact') is, as a function of a >= 0, the one and only solution of y' = -L y / lmax with y(0) = x. A signal orthogonal to an equilibrium (L z = 0) loses energy at least at the rate 2 e[1] / lmax, the Dirichlet energy decreases at least at that rate between any two scales. With the combinatorial Laplacian: the deviation from the mean decays at the same rate, y(a) tends at every vertex to the mean of x over the connected component of the vertex, the sum over the vertices of any convex function of the values never increases, and an impulse becomes strictly positive at once on the whole component of its vertex and stays exactly zero outside. What vertex j receives from an impulse at i is what i receives from one at j; what a source keeps lies in (0, 1] and never increases; (received from i at j)^2 <= kept(i) kept(j); the amounts kept sum to the sum of exp(-a e[k] / lmax).", "quantifier": "every graph with non-negative weights and history, signal, scale, lmax, convex function", "why_tests_cant": "a statement on a continuum of scales, on limits and on derivatives, for every graph: sampled scales cannot settle it", "anchors": ["pygsp/filters/heat.py: Heat", "pygsp/filters/filter.py: Filter.filter", "pygsp/graphs/graph.py: Graph.dirichlet_energy"]}
{"id": "C127", "title": "Waves conserve energy and have finite speed", "statement": "On a graph whose Fourier basis has been computed and with no frequency above lmax, for |speed| < 2, y(t) = Wave(g, time=t, speed=c).filter(x, method='exact') exists at every real time, y(0) = x, y(-t) = y(t), the norm of y(t) never exceeds that of x, and y(t+1) = 2 y(t) - y(t-1) - c^2/lmax L y(t). Propagating y(t) during u gives the mean of y(t+u) and y(t-u). The discrete energy ||y(t+1) - y(t)||^2 + c^2/lmax <y(t+1), L y(t)> does not depend on t. With the combinatorial Laplacian the sum of the values is conserved. At an integer time T the wave is exactly zero farther than |T| hops from the support of x.", "quantifier": "every graph with non-negative weights and history, signal, real times, speed", "why_tests_cant": "identities between outputs at every pair of times, and exact zeros at every vertex beyond the front, for every graph", "anchors": ["pygsp/filters/wave.py: Wave", "pygsp/filters/filter.py: Filter.filter"]}
{"id": "C128", "title": "Figures and windows opened by plots, and what close_all() closes", "statement": "For every history of plots of graphs and filters (returning or raising, with or without axes, with matplotlib or pyqtgraph), of close(), close_all() and of the user's own pyplot calls: close_all() closes exactly the figures that appeared during plots to which no axes were given, and the pyqtgraph windows that appeared, since the last close_all(); every other figure stays open, in the same order, and a figure made by a plot stays open until the user closes it or close_all() is called. A plot of a graph with matplotlib that returns opens exactly one figure, the current one, which it returns (with axes in 3D exactly when the coordinates have three columns), or none if axes are given and a figure is open or no color bar is drawn. A plot of a graph that raises because of its arguments opens nothing, except when only the highlighted vertices are wrong, or when a line is plotted without a signal: then an empty figure stays open until close_all(). A plot of a filter opens its figure even if it raises. With pyqtgraph a window is opened exactly when the call returns. When axes of a figure unknown to pyplot are given, a color bar opens an empty figure that close_all() never closes.", "quantifier": "all graphs, coordinates, arguments, filter banks, all histories of calls and all figures open before the import", "why_tests_cant": "the tests plot and call close_all() at the end; which figures are closed depends on the whole history of calls, including failing ones", "anchors": ["pygsp/plotting.py: _plt_handle_figure", "pygsp/plotting.py: close_all", "pygsp/plotting.py: close", "pygsp/plotting.py: show", "pygsp/plotting.py: _plot_graph", "pygsp/plotting.py: _plt_plot_graph", "pygsp/plotting.py: _qtg_plot_graph", "pygsp/plotting.py: _qtg_plot_signal", "pygsp/plotting.py: _plt_plot_filter"]}
{"id": "C129", "title": "What can be read in the printed form of a graph", "statement": "The printed form can be read back: two graphs of one class whose attributes contain no comma and which print the same have as many vertices, as many edges and the same extra attributes. In particular two graphs of the class Path, Ring, Torus, Comet, Star or FullConnected that print the same have the same parameters and the same weights. For Grid2d the two sizes, and whether there are diagonal edges, can be read, but not the value of the diagonal weight: two grids with different positive diagonal weights print the same. Two StochasticBlockModel that print the same have the same printed k, p, q, options and seed; repr raises AttributeError exactly when the model was made from a matrix M of probabilities.", "quantifier": "all parameters of the constructors, both Laplacian types, all lists of attributes without commas", "why_tests_cant": "tests compare a few printed forms; that different parameters never print the same is a statement about all pairs of parameters", "anchors": ["pygsp/graphs/graph.py: Graph.__repr__", "pygsp/graphs/path.py: Path._get_extra_repr", "pygsp/graphs/ring.py: Ring._get_extra_repr", "pygsp/graphs/torus.py: Torus._get_extra_repr", "pygsp/graphs/grid2d.py: Grid2d._get_extra_repr", "pygsp/graphs/comet.py: Comet._get_extra_repr", "pygsp/graphs/star.py: Star._get_extra_repr", "pygsp/graphs/stochasticblockmodel.py: StochasticBlockModel._get_extra_repr"]}
{"id": "C130", "title": "use_flann: which search makes the graph of NNGraph", "statement": "NNGraph(X, use_flann=True) tries pyflann, then scikit-learn, then scipy, an ImportError leading to the next one. When neither optional package is installed, and for NNtype='radius' in any case, the result (graph or error) is exactly that of use_flann=False. With scikit-learn, a known dist_type and k >= 1, the graph is that of an exact k-nearest-neighbours search, so that everything stated for NNGraph (C79) holds for it; it is the same graph as with use_flann=False as soon as no two points are at the same distance of a point. With pyflann the weights are exp(-x^2/sigma) where x are the numbers that pyflann returns and sigma is by default their mean: if they are f(d) for the distances d, the weights are exp(-f(d)^2/sigma) (FLANN documents squared Euclidean distances: exp(-d^4/sigma) instead of exp(-d^2/sigma)). FINDINGS: with scikit-learn an unknown dist_type (KeyError otherwise) and a Minkowski order at most zero, the default of order (ValueError otherwise), silently give the Euclidean graph; k = 0 gives a graph without edges instead of an IndexError.", "quantifier": "every point cloud, every combination of installed packages, every answer of the packages that meets the stated contract, all the arguments of NNGraph", "why_tests_cant": "which package answers depends on the environment; equality of the graphs is over all point clouds without ties and all valid answers", "anchors": ["pygsp/graphs/nngraphs/nngraph.py: NNGraph.__init__, _import_pfl, _import_sklearn_neighbors"]}
{"id": "C131", "title": "What the functions of the library do to the graph they receive", "statement": "Filtering (filter, analyze, synthesize, localize, compute_frame, estimate_frame_bounds, inverse, the filters of Gabor and Modulation), gft, igft, cheby_rect, the features (avg_adj_deg, tig, norm_tig, spectrogram), reduction.interpolate, set_coordinates, tree_multiresolution, prox_tv and lanczos_op act on the state of the graph only through the public methods of a short list given for each of them (for instance G.e and G.U with method='exact', G.lmax with 'chebyshev', G.A for avg_adj_deg and the spring layout), whether they return or raise. Hence after any program of such calls, failing or not, the adjacency matrix is unchanged, G.A, G.d, G.dw, the edge list and is_directed are those of the graph, G.L is the Laplacian of the current type, and this type is the one the graph was built with unless the program itself calls compute_laplacian. FINDINGS: tree_multiresolution raises TypeError for every graph, prox_tv and lanczos_op raise for every argument (NameError or ImportError, AttributeError), the first two after having computed the Fourier basis when asked to, respectively G.lmax.", "quantifier": "every graph, every finite program of the 22 kinds of calls with all their arguments, exceptions included", "why_tests_cant": "it is over all programs, all arguments and all failure points in the middle of a call", "anchors": ["pygsp/reduction.py: tree_multiresolution, _tree_depths, interpolate", "pygsp/optimization.py: prox_tv", "pygsp/filters/approximations.py: lanczos_op, compute_cheby_op, cheby_rect", "pygsp/filters/filter.py: Filter.filter, Filter.localize, Filter.compute_frame, Filter.estimate_frame_bounds, Filter.inverse", "pygsp/features.py: compute_avg_adj_deg, compute_tig, compute_norm_tig, compute_spectrogram", "pygsp/graphs/_layout.py: LayoutMixIn.set_coordinates", "pygsp/graphs/fourier.py: FourierMixIn.gft, FourierMixIn.igft"]}
{"id": "C132", "title": "Clusters of the graph are clusters of the first Fourier modes", "statement": "Take a graph of non-negative weights with the combinatorial Laplacian and its full Fourier basis, and any partition of the vertices in k non-empty clusters. Call ratio cut the sum over the clusters of the weight of the edges that leave it, divided by its size. (1) The first k frequencies sum to at most the ratio cut. (2) If the subgraph that `subgraph` extracts on every cluster has a single vertex or e[1] >= alpha, every mode of frequency e[i] varies inside the clusters by at most e[i] / alpha, so that alpha times the k-means cost of the partition in the points `U[v, :k]` is at most the ratio cut. (3) With eta = ratio cut / alpha, the squared distance between the means of two clusters A and B is at least (1 - eta) (1/|A| + 1/|B|). (4) The vertices that are not strictly closer to the mean of their cluster than to the other means, each counted for 1 / (size of its cluster), sum to at most 4 eta / (1 - eta); there are none in a cluster of size m with ratio cut (4 m + 1) < alpha. (5) Without edges between clusters, two vertices have the same `U[v, :k]` iff they are in the same cluster.", "quantifier": "all graphs of non-negative weights (directed or not, with or without self-loops), all histories of calls, all partitions and all alpha, all eigenbases an exact solver may return", "why_tests_cant": "a test checks a few block models with one eigenbasis; the bounds hold for every graph, partition and choice of eigenvectors, including repeated eigenvalues", "anchors": ["pygsp/graphs/fourier.py: FourierMixIn.compute_fourier_basis, FourierMixIn.U, FourierMixIn.e", "pygsp/graphs/graph.py: Graph.subgraph, Graph.compute_laplacian"]}
{"id": "C133", "title": "A partial Fourier basis is the beginning of the full one", "statement": "On a graph of non-negative weights, after any history of calls, with a partial eigensolver that returns eigenvalues of smallest magnitude as documented (no eigenvector orthogonal to the returned ones has an eigenvalue of smaller magnitude): (1) the k stored frequencies `G.e` are the first k frequencies of the full basis of the same Laplacian, whichever solver computed either; `compute_fourier_basis(n_eigenvectors=k)` with fewer columns stored stores exactly them. (2) Where e[k] > e[k-1], the partial transform keeps the same part of every signal as the full one: `G.U @ G.gft(x)` is the sum of the first k terms of the full Fourier series and the energies agree. (3) `set_coordinates('laplacian_eigenmap2D')` (and 3D) with the combinatorial Laplacian draws the graph with the shortest edges: among all layouts with orthonormal centred coordinates it minimises the sum over the edges of the weight times the squared length. (4) In the drawing of a connected graph made of d+1 clusters, each knit by alpha in the sense of C132, every vertex of a cluster of size m with ratio cut (4 m + 1) < alpha is drawn strictly closer to the centre of its cluster than to the other centres.", "quantifier": "all graphs of non-negative weights, all histories of calls, all k, all exact solvers (any choice of eigenvectors), all competing layouts and partitions", "why_tests_cant": "a test compares a few small graphs with one solver; which eigenvectors a truncated solver may return, repeated eigenvalues and the optimality over all layouts are beyond examples", "anchors": ["pygsp/graphs/fourier.py: FourierMixIn.compute_fourier_basis, FourierMixIn.gft", "pygsp/graphs/_layout.py: LayoutMixIn.set_coordinates"]}
{"id": "C134", "title": "Learning, resistances and Kron reduction have their random-walk meaning", "statement": "Consider the random walk on the graph that moves from v to w with probability w_vw / d_v (weights without direction, degrees). On a graph with non-negative weights, combinatorial Laplacian, at any point of its history: (a) regression_tikhonov returns at every vertex v the expected measurement at the vertex where the walk from v stops, when it stops at a measured vertex b with probability 1/(1 + tau d_b) (always when tau <= 0) and never elsewhere; classification_tikhonov returns the probabilities of the classes of that vertex; the walk stops with probability one as soon as every vertex is linked to a measured one. (b) On a connected graph, the mean time to go from a to b and come back is the sum of the degrees times resistance_distance(G)[a, b], and the walk that leaves a reaches b before it returns to a with probability 1/(d_a R_ab). (c) The weight between two vertices of kron_reduction(G, ind) is the degree of the first vertex in G times the probability that the next kept vertex visited by the walk is the second.", "quantifier": "every graph with non-negative weights, history, measured set linked to every vertex, measurements or labels, tau, pair of vertices, kept set", "why_tests_cant": "the statement is about the sum of an infinite series of probabilities, over all graphs and all masks; tests compare a few values on a few graphs and never walks", "anchors": ["pygsp/learning.py: regression_tikhonov", "pygsp/learning.py: classification_tikhonov", "pygsp/utils.py: resistance_distance", "pygsp/reduction.py: kron_reduction"]}
{"id": "C135", "title": "Small changes of the weights make small changes of the Fourier modes and of ideal filters", "statement": "For two graphs on the same vertices with non-negative weights and the combinatorial Laplacian, whose Fourier bases were computed at any point of their histories, let D = sum_ij |W[i,j] - W'[i,j]|. If the frequencies of a group of modes of the first graph are at least gamma > D away from its other frequencies, a signal made of the modes of the same ranks on the second graph has outside of the group at most (D/(gamma-D))^2 of its energy in the gft of the first graph. A single mode whose frequency is at least gamma away from the others moves, up to its sign, by at most sqrt(2) D/(gamma-D) in norm; the sign pattern is kept at every vertex where the mode is larger than this, and the gft coefficient of any signal x at that rank changes by at most sqrt(2) D/(gamma-D) |x|, up to the same sign. If no frequency is within gamma of a cut-off c*lmax of a Rectangular filter and D + |c| |lmax - lmax'| < gamma, the outputs of the filter on the two graphs (each with its own lmax) differ by at most D/(2 gamma - D) |x|.", "quantifier": "all pairs of graphs with non-negative weights on the same vertices, all histories, all groups of modes, all gaps larger than the change, all signals, all bands", "why_tests_cant": "the modes are defined up to sign and rotation and the bound holds for every perturbation and every gap; a test can only compare a few pairs of graphs", "anchors": ["pygsp/graphs/fourier.py: compute_fourier_basis", "pygsp/graphs/fourier.py: gft", "pygsp/filters/rectangular.py: Rectangular", "pygsp/filters/filter.py: Filter.filter"]}
{"id": "C136", "title": "Drawing preferences: whose win, how long they stay, and the announced limits", "statement": "After any sequence of constructor calls, derivations (subgraph, extract_components, kron_reduction, LineGraph, Grid2dImgPatches), and settings or removals of entries: a new graph shows in G.plotting the preferences of its class over the seven default ones, or, for the classes without preferences of their own, those given by the user, key by key, over the default ones; the classes with preferences of their own (Path, Ring, Grid2d, Torus, Star, Sensor, ...) refuse the argument plotting with TypeError; the dictionary given is not modified. Graph(adjacency) always has exactly the default preferences, whatever was done before. Setting or removing an entry of one graph changes no other entry and no other graph; the preferences of a graph are changed by nothing else, not even by later changes of the dictionary that was given. A derived graph takes the preferences of the moment, and the default value of missing entries. As long as no entry is removed and the values are sensible, plot finds all the entries it reads. In three dimensions the point of view is set exactly when elevation and azimuth are given, the distance only then. The entry limits contains the positions of all the vertices of Path, Ring, RandomRing, Torus, Star, LowStretchTree, Sensor and DavidSensorNet. Not guaranteed: Grid2d (the bottom row is always outside its limits), SwissRoll (coordinates can be below -1), LowStretchTree's thin edges (written under the name edges_width, which nothing reads) and the preferences given to Grid2dImgPatches (accepted and ignored).", "quantifier": "all histories of operations, all classes and parameters, all dictionaries, keys and values, all sizes of graphs and random draws", "why_tests_cant": "aliasing of mutable objects (default arguments, shared dictionaries) shows only after particular sequences of calls; the limits must hold for all sizes and all draws", "anchors": ["pygsp/graphs/graph.py: Graph.__init__, subgraph", "pygsp/graphs/path.py: Path", "pygsp/graphs/grid2d.py: Grid2d", "pygsp/graphs/torus.py: Torus", "pygsp/graphs/star.py: Star", "pygsp/graphs/lowstretchtree.py: LowStretchTree", "pygsp/graphs/swissroll.py: SwissRoll", "pygsp/graphs/linegraph.py: LineGraph", "pygsp/graphs/nngraphs/nngraph.py: NNGraph", "pygsp/graphs/nngraphs/grid2dimgpatches.py: Grid2dImgPatches", "pygsp/reduction.py: kron_reduction", "pygsp/plotting.py: _plot_graph, _plt_plot_graph"]}
{"id": "C137", "title": "The distribution of Barabási–Albert trees", "statement": "With an ideal random generator, BarabasiAlbert(N, m0, m=1) attaches every vertex i >= m0 to one earlier vertex pi(i), and any given choice of these has probability the product over i of (1 + degree of pi(i) before i arrives) / (3 i - 2 m0). The mean degree of a vertex v >= m0 is 2 prod_{v < i < N} (1 + 1 / (3 i - 2 m0)) - 1, the mean degree of an initial vertex is prod_{m0 <= i < N} (1 + 1 / (3 i - 2 m0)) - 1. So the mean degree plus one grows like the cube root of N / v (upper and lower bounds), not like the square root of the original model, because the code adds one to the degrees. Among added vertices the mean degree decreases strictly with the order of arrival; the initial vertices have all the same, at most that of the first added one, less if there are at least two of them.", "quantifier": "all N, m0 >= 1, all attachments, all vertices, all random numbers of an ideal generator", "why_tests_cant": "Probabilities and means over all seeds and all sizes, and a growth rate in N: a test can only estimate them by sampling a few sizes.", "anchors": ["pygsp/graphs/barabasialbert.py: BarabasiAlbert"]}
{"id": "C138", "title": "Symmetries of the spring layout", "statement": "set_coordinates('spring') looks at the graph only through the set of links of positive weight: graphs with the same links are drawn alike from the same start, whatever their weights and histories. Renaming the vertices in the weights, in the starting positions (given or drawn) and in the list of fixed vertices renames the layout. So a symmetry of the graph that keeps the start and the fixed vertices keeps the layout, and two vertices with the same neighbours that start together are never told apart. With fixed vertices and an explicit k, moving all the given positions by an isometry moves the layout by the same isometry. Without fixed vertices, an isometry of the start moves the layout by its linear part around the centre, up to a positive factor (the scaling uses the largest coordinate), and a translation of the start changes nothing. A linear equation satisfied by all the given positions is satisfied by the layout (by the layout seen from its centre when no vertex is fixed): points given on a line are drawn on a line.", "quantifier": "every graph, history, dimension, number of iterations, k, scale, centre, starting positions, set of fixed vertices, permutation, orthogonal matrix and translation", "why_tests_cant": "Statements about all graphs, starts and transformations; tests compare a handful of layouts with tolerances, and a layout that breaks the symmetry for one start goes unnoticed.", "anchors": ["pygsp/graphs/_layout.py: LayoutMixIn.set_coordinates, LayoutMixIn._fruchterman_reingold, _sparse_fruchterman_reingold, _rescale_layout"]}
{"id": "C139", "title": "The two classifiers, one class against the others, merged classes", "statement": "Every column of classification_tikhonov is what regression_tikhonov gives for the indicator of that class (any Laplacian, any tau, whatever the linear solver does), so with the labels 0 and 1 the second column is the regression of the labels themselves. With the combinatorial Laplacian and every vertex linked to a label: merging classes before the classification is adding up their columns after it, and renumbering the classes permutes the columns. For tau > 0 classification_tikhonov and classification_tikhonov_simplex then solve the same problem although only the second asks for probability vectors: the result of the first is the only minimiser of the function of the second among all matrices, the only point its solver does not move, and from any starting point the unaccelerated iteration goes there with the linear rate (1 + tau lmax) / (1 + tau lmax + mu), mu > 0 being the smallest eigenvalue of M + tau L. With the normalized Laplacian they differ (finding): on every graph with two linked vertices of different degrees, when all labels are the same, the rows of classification_tikhonov are not probability vectors.", "quantifier": "all weighted graphs with non-negative weights, all states of the graph object, all labels and masks, all tau, all maps of the classes, all starting points and numbers of iterations", "why_tests_cant": "that two different algorithms converge to the same matrix is a limit statement for every graph and every set of labels; tests compare a few predictions", "anchors": ["pygsp/learning.py: classification_tikhonov", "pygsp/learning.py: classification_tikhonov_simplex", "pygsp/learning.py: regression_tikhonov", "pygsp/learning.py: _to_logits"]}
{"id": "C140", "title": "What the graph of NNGraph depends on", "statement": "Without rescaling, NNGraph depends on the points only through their distances: rotating, reflecting or moving them gives the same graph. Unless the weights are averaged, changing the unit raises them to a power (the factor, or its square when sigma is given); with rescaling the power is the ratio of the half-diagonals of the bounding boxes, so that a rotation changes the weights. With a given sigma, more neighbours, a larger epsilon or a distance of higher order never remove an edge nor lower a weight. In the radius graph, vertices are linked when a chain of steps of length at most epsilon joins their points; k = N - 1 and a large epsilon give the same graph. The order of the points only renames the vertices, unless only a triangle is kept. For the nearest neighbours, the comparisons of k and of orders suppose that no two points are at the same distance of a third one.", "quantifier": "all points, dimensions, orders, units, distances, numbers of neighbours, radii and symmetrizations", "why_tests_cant": "each claim compares two calls, for every set of points and every transformation of it; tests compare a few point sets with stored numbers", "anchors": ["pygsp/graphs/nngraphs/nngraph.py: NNGraph.__init__", "pygsp/utils.py: symmetrize"]}
{"id": "C141", "title": "The frequencies and the second Fourier mode of StochasticBlockModel samples", "statement": "For undirected samples of StochasticBlockModel (and ErdosRenyi) drawn with independent uniform variates: the mean of each weight is the probability of its pair, the mean of the Dirichlet energy x.T L x of a fixed signal is the energy on the mean weights, and its variance is half the sum over the pairs of p(1-p)(x_i - x_j)^4. With probability at least 1 - 2 N^3 v / t^4 - 2 N exp(-2 s^2 / N), where v bounds the p(1-p), the energies of all the signals at once are within (t + s)|x|^2 of the energies on the mean weights; then every frequency e[k] of the sample is within t + s of the frequency e[k] of the graph of the mean weights, and for ErdosRenyi(N, p) all frequencies but the first are within t + s of pN. For two communities of the same size linked with probabilities p inside and q < p across, with the same probability and t + s < N q, the signs of G.U[:, 1] (or their opposites) give the community of all the vertices but at most 4 (t + s)/(p - q); for fixed 0 < q < p the fraction of the misplaced vertices tends to zero in probability when N grows.", "quantifier": "every number of vertices, block assignment, symmetric matrix of probabilities, self-loop option, accuracy t and s, signal, reachable graph state with a full basis", "why_tests_cant": "a statement about the distribution of the samples for every size, and about every signal at once; a test sees a few seeds", "anchors": ["pygsp/graphs/stochasticblockmodel.py: StochasticBlockModel", "pygsp/graphs/erdosrenyi.py: ErdosRenyi", "pygsp/graphs/fourier.py: compute_fourier_basis"]}
{"id": "C142", "title": "Rounding errors of Chebyshev filtering and of the Laplacian", "statement": "When every arithmetic operation has a relative error of at most u (2^-53 in double precision, for rounding to the nearest without underflow or overflow), cheby_op with M coefficients, on a graph with non-negative weights, a stored Laplacian with at most m entries per row and a stored lmax that is a floating-point upper bound of the frequencies, returns each filtered signal up to an error of norm at most (2 g(M+1) + 2 (M-1) M (2 sqrt(N) + 2) g(m+5)) sum|c_k| |s|, where g(j) = (1+u)^j - 1 (at most 2 j u when j u <= 1), provided the second term is below 1; for the combinatorial Laplacian the bound is (2 g(M+1) + 16 (M-1) M g(m+5)) sum|c_k| |s|, whatever the number of vertices: the errors grow with the square of the order, not exponentially. The computed combinatorial Laplacian is symmetric, each entry is exact up to g(m+4) times the magnitude of its terms (m bounds the in- and out-neighbors), and its frequencies are within 2 g(m+4) times the largest weighted degree of the exact ones. On an undirected graph with integer weights whose sums stay below 2^53 it is exact. The total error of Chebyshev filtering is at most the sum of the rounding term, of (order + 1) times the error of the computed coefficients, and of the approximation error (C97).", "quantifier": "every size, graph with non-negative weights, reachable state, rounding function with the stated accuracy, order, coefficients, signals", "why_tests_cant": "a test compares a few runs with another floating-point computation, on one machine; the growth of the errors with the order, for every graph and signal, is a theorem", "anchors": ["pygsp/filters/approximations.py: cheby_op", "pygsp/graphs/graph.py: compute_laplacian, dw", "pygsp/utils.py: symmetrize"]}
{"id": "C143", "title": "Rounding errors of the Fourier transform and of exact filtering", "statement": "When every arithmetic operation has a relative error of at most u, whatever the order in which the BLAS adds the products (and with or without fused multiply-adds), and the computed U is within d of an orthonormal matrix (Frobenius norm): gft and igft return the exact transforms up to h |s| with h = g(N+1)(sqrt(N) + d) + d, g(j) = (1+u)^j - 1, hence preserve norms to that accuracy; igft(gft(s)) and gft(igft(s)) return s up to ((1+h)^2 - 1)|s|. If in addition the computed e are the exact eigenvalues of a matrix within eps of the Laplacian with these eigenvectors (backward stability), the responses are computed with an error of at most k, and the kernels are K-Lipschitz and bounded by B on a set that contains the exact and computed eigenvalues, filter(s, method='exact') returns each filtered signal up to ((1+h)^2 (1+u)^2 (B + k) - B + K eps)|s| of the result in exact arithmetic.", "quantifier": "every number of vertices, order of the additions, rounding function with the stated accuracy, backward stable eigendecomposition, filter bank, signal, reachable state", "why_tests_cant": "the docstrings only compare igft(gft(s)) with s to 1e-10 on one graph; a bound for every graph, signal and evaluation order is a theorem", "anchors": ["pygsp/graphs/fourier.py: gft, igft", "pygsp/filters/filter.py: Filter.filter"]}
{"id": "C144", "title": "The sanity checks of compute_fourier_basis and estimate_lmax under rounding errors", "statement": "When the eigensolver returns the exact eigenvalues, in ascending order, of a matrix within eps of the Laplacian (Frobenius norm; eigenvectors within d of orthonormal ones), each computed eigenvalue is within eps of the exact one of the same rank. On a new graph with non-negative weights, compute_fourier_basis() then succeeds if eps < 1e-5 and eps is at most the largest frequency (or N = 1): e[0] is exactly 0, every e[k] is within eps of the exact frequency, lmax = e[-1] = max(e), and the stored decomposition is within 2 eps, so that the error bounds of exact filtering (C143) apply. estimate_lmax() succeeds if the value computed by ARPACK exceeds the largest frequency by at most 1e-12, and lmax then bounds the frequencies if that value is at most 0.99% too small. Findings: both tolerances are absolute, so that for any relative accuracy of the solver there is a connected graph (one edge of large weight; in double precision 4504 suffices for estimate_lmax) on which AssertionError may be raised, after which G.lmax is None; only e[0] is set to zero, so that on every graph that is not connected e[1] may be negative: e is then not sorted and Wave is NaN there.", "quantifier": "every graph with non-negative weights, both Laplacians, every eigensolver with the stated accuracy, every accuracy", "why_tests_cant": "Tests run one LAPACK on a few small graphs with weights of order one; the statement is about every solver within the documented accuracy and every scale of the weights.", "anchors": ["pygsp/graphs/fourier.py: FourierMixIn.compute_fourier_basis", "pygsp/graphs/graph.py: Graph.estimate_lmax", "pygsp/filters/wave.py: Wave"]}
{"id": "C145", "title": "Rounding errors of the normalized Laplacian", "statement": "When every operation has a relative error of at most u and the power x^(-1/2) that of j operations, every entry of the Laplacian computed by compute_laplacian('normalized') on non-negative weights is within ((1+u)^(2(m+j)+13) - 1) of the exact one, relatively to the sum of the absolute values of its two terms, where m bounds the number of neighbors of a vertex (for m with (1+u)^(m+3) <= 3/2); zero entries are computed as zero. The frequencies of the matrix that the eigensolver reads (its lower triangle) are within twice that error of the exact ones, whatever the weights, the degrees and the number of vertices. With exact arithmetic the computed matrix is the normalized Laplacian. Finding: the computed matrix need not be symmetric (the triangle with weights 7, 2 and 18 in double precision).", "quantifier": "every graph with non-negative weights, every rounding with a relative error bound, every accuracy of the power", "why_tests_cant": "Tests compare a few matrices with a tolerance; the bound holds for all weights and sizes, and the asymmetry only shows for some weights.", "anchors": ["pygsp/graphs/graph.py: Graph.compute_laplacian", "pygsp/graphs/fourier.py: FourierMixIn.compute_fourier_basis"]}
{"id": "C146", "title": "Learning with the tolerance of the conjugate gradient", "statement": "regression_tikhonov with tau > 0 calls scipy's conjugate gradient with its default tolerance and ignores the exit code. On every graph with nonnegative weights the solver succeeds within its limit of iterations; the result satisfies the normal equations up to rtol times the norm of the measurements, its objective is at most that of the zero signal and its smoothness at most the squared norm of the measurements over tau. When every vertex is measured the distance to the exact result is at most rtol times the norm of the measurements; in general the error at a vertex is at most rtol sqrt(N) (1 + r / tau) times this norm, where r bounds the resistance from a vertex to a measured one. This bound blows up for small tau, and so does the error (a defect): when tau times the largest frequency is below rtol (1e-5), the solver stops after one iteration, the regression is a multiple of the measurements on the measured vertices and exactly zero on all others, where the exact result for a constant measurement is that constant, and the rows of classification_tikhonov are zero for every unlabelled vertex. Whatever the tolerance, measurements times c give the result times c, and renaming the vertices renames the result; but the result is not additive: for such a small tau, with every vertex measured, the regression of a signal plus a constant is not the regression of the signal plus that of the constant, unless the signal has zero smoothness (a finding).", "quantifier": "all graphs with nonnegative weights, measurements, masks, labels, tau and tolerances", "why_tests_cant": "a test compares one regression with a reference at one value of tau; the convergence of the solver for all systems, the error for all graphs and the failure for all small tau are universal statements.", "anchors": ["pygsp/learning.py: regression_tikhonov, classification_tikhonov", "pygsp/graphs/graph.py: Graph.compute_laplacian"]}
{"id": "C147", "title": "The accelerated solver of classification_tikhonov_simplex", "statement": "classification_tikhonov_simplex calls pyunlocbox's forward-backward solver, which accelerates (FISTA) and stops when the relative change of the objective is below rtol (default 1e-3) or after maxit (200) iterations. For every graph with nonnegative weights, labels, mask and tau > 0 it returns after between 1 and maxit iterations, exactly maxit when rtol is 0; the rows are probability vectors; after K iterations the objective exceeds that of any matrix of probability vectors by at most 40 N (1 + tau lmax) / (K + 2)^2, and with the combinatorial Laplacian the squared distance to classification_tikhonov is at most this bound over the smallest eigenvalue of the operator. But information travels one hop per iteration (a defect of the fixed limit of iterations): after K iterations every vertex more than K hops away from the labelled vertices has the uniform distribution, so that the documented argmax gives class 0, for instance when all the labels are c > 0, where giving c to all vertices has objective zero.", "quantifier": "all graphs with nonnegative weights, both Laplacians (rate and locality), labels, masks, tau > 0, tolerances and limits of iterations", "why_tests_cant": "the rate and the locality are statements about all numbers of iterations and all graphs; the tests run on graphs of small diameter with one tolerance.", "anchors": ["pygsp/learning.py: classification_tikhonov_simplex"]}
{"id": "C148", "title": "Rounding errors of dirichlet_energy, grad and div", "statement": "When every arithmetic operation has a relative error of at most u, on a graph with non-negative weights the value of G.dirichlet_energy(x) for the combinatorial Laplacian, in whatever order the BLAS adds the terms, differs from half the sum of w_ij (x_i - x_j)^2 by at most g(2m + N + 6) times 2 sum d_v x_v^2, where g(j) = (1+u)^j - 1 and m bounds the number of neighbors of a vertex (itself included); hence it is never below minus this bound. G.grad(x) on an edge is exact up to g(m + 11) times the sum of the absolute values of its two terms, for both Laplacians, and G.div(y) on a graph without self-loops up to g(m + q + 9) times the sum of the absolute values of its terms, q being the number of edges at the vertex. With a rounding that is odd and leaves rounded numbers unchanged (IEEE 754), the gradient of a constant signal is exactly zero for the combinatorial Laplacian. On an undirected graph with integer weights and an integer signal whose sums stay below 2^53 the energy is exact. But (a finding) dirichlet_energy can be negative: with p binary digits, on the path with the weights 1 and 2^-(p+1) the energy of the constant signal 1 is -2^-(p+1), in whatever order the terms are added, whereas the squared norm of the gradient is zero.", "quantifier": "every size, graph, signal, rounding function with the stated accuracy, order of summation, number of binary digits", "why_tests_cant": "the rounding errors depend on the order of summation chosen by the BLAS and on the values; a test sees one of them, and compares with a tolerance.", "anchors": ["pygsp/graphs/graph.py: Graph.dirichlet_energy, Graph.compute_laplacian, Graph.dw", "pygsp/graphs/difference.py: DifferenceMixIn.compute_differential_operator, DifferenceMixIn.grad, DifferenceMixIn.div"]}
{"id": "C149", "title": "Rounding errors of the Chebyshev coefficients, and of Chebyshev filtering from the kernels to the signals", "statement": "When every arithmetic operation has a relative error of at most u, the cosines an absolute error of at most d <= 1 and the kernel an error of at most e on a small neighborhood of [0, lmax], compute_cheby_coeff, in whatever order np.dot adds, returns every coefficient of a kernel that is bounded by B and varies by at most K per unit of frequency up to 4 (1 + g(N+3)) (e + K h) + 4 g(N+3) B + 2 B (d + 4 m g(5)), where N is the number of quadrature points, m the order, g(j) = (1+u)^j - 1 and h = lmax/2 (d + 7 g(4)) bounds the error of the abscissae: the error grows linearly with the order. Together with the error of the recurrence (C142) and of the approximation (C97) this bounds the error of Chebyshev filtering with the combinatorial Laplacian from the kernels to the filtered signals; for Heat with scales at most t the bound is explicit and tends to 2 (t/4)^(m+1) / (m+1)! when the rounding errors tend to zero.", "quantifier": "every graph with non-negative weights and combinatorial Laplacian, reachable state, kernels, order, number of quadrature points, signal, rounding function, cosine and kernel evaluation with the stated accuracy, order of summation", "why_tests_cant": "a test compares Chebyshev filtering with exact filtering on one graph, order and machine; the bound must hold for all of them and for every order of summation.", "anchors": ["pygsp/filters/approximations.py: compute_cheby_coeff, cheby_op", "pygsp/filters/filter.py: Filter.filter", "pygsp/filters/heat.py: Heat"]}
{"id": "C150", "title": "Rounding errors of distanz", "statement": "When every arithmetic operation has a relative error of at most u <= 1, distanz(x, y) returns non-negative numbers, in whatever order and with whatever fused operations numpy and the BLAS add. The square of each is the square of the Euclidean distance up to ((1+u)^(r+5) - 1) times twice the sum of the squared norms of the two points, r being the number of rows: the error is relative to the norms of the points, not to their distance. The distance d has at most the square root of this error, and at most this error over d; a Gaussian weight exp(-d^2/(2 s^2)) at most this error over 2 s^2. Between points with integer coordinates that are not too large the only error is that of the square root. Finding: the computed distance is not a metric. With p binary digits distinct points as far as 2^(-p/2) apart are at computed distance zero (1e-8 from 1 in double precision), and with a fused multiply-add a point may be at a computed distance of 2^(-(p-1)/2) from itself.", "quantifier": "every pair of arrays with the same number of rows, rounding function, order of summation", "why_tests_cant": "a test compares the distances with those of scipy for a few points, up to a tolerance and on one machine; the bound must hold for all points and orders of summation.", "anchors": ["pygsp/utils.py: distanz", "pygsp/graphs/swissroll.py: SwissRoll", "pygsp/graphs/davidsensornet.py: DavidSensorNet"]}
{"id": "C151", "title": "The edges between the communities of Community are uniformly distributed", "statement": "When Community(N, ...) returns, the set of edges between different communities is uniformly distributed among the sets with the right number of pairs, independently of the labels, the positions and the edges inside the communities. With world_density < 0.35 (rejection sampling): among the sequences of T draws of rng.integers(0, N, 2), as many end with one set of edges as with any other set of the same size; hence among those that end every pair of vertices of different communities is linked with the same probability, floor(world_density * P) / P, where P is the number of such pairs. Every run that ends within T draws is one of those counted. With world_density >= 0.35: as many results of rng.permutation give one set as any other of the same size.", "quantifier": "every N, arguments, other random numbers, number of draws, sets of pairs of the same size", "why_tests_cant": "a test samples a few graphs; uniformity is a statement about all sequences of random numbers.", "anchors": ["pygsp/graphs/community.py: Community"]}
{"id": "C152", "title": "The distribution of the edges inside the communities", "statement": "Community(N, ..., comm_density=d): in a community with M pairs of vertices exactly floor(d M) pairs are linked, and with an ideal permutation every set of that many pairs is equally likely, with probability 1 / binomial(M, floor(d M)), whatever all the other random numbers are. Two vertices of the same community are linked with probability floor(d M) / M. The permutation of one community has no effect on the communities themselves nor on any edge elsewhere, inside the other communities or between communities: the edges of the different communities are independent.", "quantifier": "all N, community sizes (given or drawn), densities, communities, sets of pairs, vertices, permutations and other random numbers, both ways of drawing the edges between communities", "why_tests_cant": "A test sees a few seeds; the exact probability of each of the exponentially many edge sets, and the independence between communities, cannot be estimated by sampling.", "anchors": ["pygsp/graphs/community.py: Community.__init__"]}
{"id": "C153", "title": "Kron reduction and multiresolution of the classical graphs", "statement": "kron_reduction of the path to any increasing selection of at least two of its vertices is the path of these vertices, where the weight between two consecutive ones is the inverse of the difference of their numbers; of the cycle of even length to every second vertex it is the cycle of half the length with half the weights; of the complete graph with N vertices to any k of them it is the complete graph with weights N / k; of the star to its leaves it is the complete graph with weights one over the number of leaves.  graph_multiresolution of the cycle with 2^levels * q vertices (q at least 2, complete Fourier bases, no sparsification) computes all its levels whatever orthonormal eigenvectors the solver returns: level j is the cycle of the multiples of 2^j, with weights 1 / 2^j and with the coordinates of these vertices.", "quantifier": "all sizes, all selections of the vertices, all numbers of levels, all coordinates, all eigensolvers that meet their specification, all histories of operations on the graph before the call", "why_tests_cant": "A test reduces one graph of one size with the eigenvectors of one LAPACK; the claim is an identity for every size and every number of levels, and for every basis a solver may return.", "anchors": ["pygsp/reduction.py: kron_reduction, graph_multiresolution", "pygsp/graphs/path.py: Path", "pygsp/graphs/ring.py: Ring", "pygsp/graphs/fullconnected.py: FullConnected", "pygsp/graphs/star.py: Star"]}
{"id": "C154", "title": "Reduction and multiresolution of bipartite graphs", "statement": "When no edge joins two eliminated vertices, kron_reduction gives two kept vertices the weight they had plus, for every eliminated vertex, the product of the two weights that lead to it divided by its degree.  On a connected bipartite graph with non-negative weights, one level of graph_multiresolution (complete Fourier basis, no sparsification) keeps exactly the vertices on the side of vertex 0, whatever orthonormal eigenvectors the solver returns, and the new weights are those of the previous formula.  The largest Laplacian eigenvalue of such a graph is simple; with compute_full_eigen=False, a fresh graph of at least three vertices and an exact eigenvector of it from scipy.sparse.linalg.eigs, the same vertices are kept.  On Grid2d without diagonals these are the vertices of one colour of the checkerboard.  On the path with more than 2^levels vertices all levels are computed: level j is the path of the multiples of 2^j, with weights 1 / 2^j and with the coordinates of these vertices.", "quantifier": "all connected graphs, all independent sets of eliminated vertices, all two-coloured graphs, all sizes and numbers of levels, all eigensolvers that meet their specification, all histories of operations on the graph before the call", "why_tests_cant": "A test sees the signs that one eigensolver gives to the entries of one vector; that the selection is one side of every bipartite graph rests on the last eigenvalue being simple with an eigenvector without zeros.", "anchors": ["pygsp/reduction.py: kron_reduction, graph_multiresolution", "pygsp/graphs/path.py: Path"]}
